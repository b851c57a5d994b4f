import Mathlib.Tactic.Common
import Verif.Cmd.SetOpt

/-!
C52, C66: the command line, `/repo/src/main.c:40-72, 247-289, 486-768`.

Texts are byte strings.  The two passes over the command line (`dryrun`) are one pass: the first one only ends the program for command lines for
which the second would end it too.  The memory limit is left out except for the text `unlimited` (the others are floating point numbers;
`memok` says which texts are accepted).  `char *` values contain no NUL byte, which is not needed below.
-/

namespace Verif.Main

/-- The variables set by the flags, `/repo/src/main.c:39-66, 86, 497-546`. -/
inductive Var where
  | port | host | unixsock | verb | threads | shards | backlog | queuesize | maxmemory | evict | reuseport | uring | tcpnodelay | keepalive | quickack | trackallocs | cas | maxconns | loadfactor | sixpack | seed | auth | persist | noticker | autosweep | warmup | allocator | tlsport | tlscert | tlscacert | tlskey | maxmemorymb
deriving DecidableEq, Repr

/-- The kinds of flags: `AFLAG` (`--name value` or `--name=value`), `BFLAG` (`-x value`), `TFLAG` (no value), `/repo/src/main.c:249-281`. -/
inductive Flag where
  | long (name : Bytes) (v : Var)
  | short (name : Bytes) (v : Var)
  | toggle (name : Bytes) (v : Var) (value : Bytes)

/-- The flags in order, `/repo/src/main.c:504-546`. -/
def flags : List Flag :=
  [.short [45, 112] .port /- -p -/,
   .short [45, 104] .host /- -h -/,
   .short [45, 115] .unixsock /- -s -/,
   .toggle [45, 118] .verb [49] /- -v -/,
   .toggle [45, 118, 118] .verb [50] /- -vv -/,
   .toggle [45, 118, 118, 118] .verb [51] /- -vvv -/,
   .long [112, 111, 114, 116] .port /- port -/,
   .long [116, 104, 114, 101, 97, 100, 115] .threads /- threads -/,
   .long [115, 104, 97, 114, 100, 115] .shards /- shards -/,
   .long [98, 97, 99, 107, 108, 111, 103] .backlog /- backlog -/,
   .long [113, 117, 101, 117, 101, 115, 105, 122, 101] .queuesize /- queuesize -/,
   .long [109, 97, 120, 109, 101, 109, 111, 114, 121] .maxmemory /- maxmemory -/,
   .long [101, 118, 105, 99, 116] .evict /- evict -/,
   .long [114, 101, 117, 115, 101, 112, 111, 114, 116] .reuseport /- reuseport -/,
   .long [117, 114, 105, 110, 103] .uring /- uring -/,
   .long [116, 99, 112, 110, 111, 100, 101, 108, 97, 121] .tcpnodelay /- tcpnodelay -/,
   .long [107, 101, 101, 112, 97, 108, 105, 118, 101] .keepalive /- keepalive -/,
   .long [113, 117, 105, 99, 107, 97, 99, 107] .quickack /- quickack -/,
   .long [116, 114, 97, 99, 107, 97, 108, 108, 111, 99, 115] .trackallocs /- trackallocs -/,
   .long [99, 97, 115] .cas /- cas -/,
   .long [109, 97, 120, 99, 111, 110, 110, 115] .maxconns /- maxconns -/,
   .long [108, 111, 97, 100, 102, 97, 99, 116, 111, 114] .loadfactor /- loadfactor -/,
   .long [115, 105, 120, 112, 97, 99, 107] .sixpack /- sixpack -/,
   .long [115, 101, 101, 100] .seed /- seed -/,
   .long [97, 117, 116, 104] .auth /- auth -/,
   .long [112, 101, 114, 115, 105, 115, 116] .persist /- persist -/,
   .long [110, 111, 116, 105, 99, 107, 101, 114] .noticker /- noticker -/,
   .long [97, 117, 116, 111, 115, 119, 101, 101, 112] .autosweep /- autosweep -/,
   .long [119, 97, 114, 109, 117, 112] .warmup /- warmup -/,
   .long [97, 108, 108, 111, 99, 97, 116, 111, 114] .allocator /- allocator -/,
   .long [116, 108, 115, 112, 111, 114, 116] .tlsport /- tlsport -/,
   .long [116, 108, 115, 99, 101, 114, 116] .tlscert /- tlscert -/,
   .long [116, 108, 115, 99, 97, 99, 101, 114, 116] .tlscacert /- tlscacert -/,
   .long [116, 108, 115, 107, 101, 121] .tlskey /- tlskey -/,
   .short [45, 116] .threads /- -t -/,
   .short [45, 109] .maxmemorymb /- -m -/,
   .toggle [45, 77] .evict [110, 111] /- -M -/]

/-- `--`. -/
def dashes : Bytes := [45, 45]

/-- What an argument is: sets a variable, sets one to the next argument, or is unknown. -/
inductive Arg where
  | sets (v : Var) (value : Bytes)
  | next (v : Var)
  | unknown
deriving DecidableEq, Repr

/-- The chain of `if`s made by the macros, `/repo/src/main.c:247-281`; `strstr(a, p) == a` says that `a` begins with `p`. -/
def flagAt : List Flag → Bytes → Arg
  | [], _ => .unknown
  | .short name v :: l, a => if a = name then .next v else flagAt l a
  | .toggle name v value :: l, a => if a = name then .sets v value else flagAt l a
  | .long name v :: l, a =>
    if a = dashes ++ name then .next v
    else if (dashes ++ name ++ [61]).isPrefixOf a then .sets v (a.drop (name.length + 3))
    else flagAt l a

/-- The loop over the arguments, `/repo/src/main.c:488-548`; `none` if the program ends (`--help`, `--version`, an unknown option or a missing
value).  The settings, the latest first. -/
def parseArgs : List Bytes → List (Var × Bytes) → Option (List (Var × Bytes))
  | [], st => some st
  | a :: l, st =>
    if a = [45, 45, 104, 101, 108, 112] ∨ a = [45, 45, 118, 101, 114, 115, 105, 111, 110] then none
    else match flagAt flags a with
      | .sets v value => parseArgs l ((v, value) :: st)
      | .next v => match l with
        | [] => none
        | value :: l => parseArgs l ((v, value) :: st)
      | .unknown => none

/-- The values of the variables before the command line is looked at, `/repo/src/main.c:39-66` (`uring`: 481-485, if io_uring is available). -/
def default : Var → Bytes
  | .port => [57, 52, 48, 49] /- 9401 -/
  | .host => [49, 50, 55, 46, 48, 46, 48, 46, 49] /- 127.0.0.1 -/
  | .reuseport => [110, 111] /- no -/
  | .tcpnodelay => [121, 101, 115] /- yes -/
  | .quickack => [110, 111] /- no -/
  | .cas => [110, 111] /- no -/
  | .keepalive => [121, 101, 115] /- yes -/
  | .threads => [48] /- 0 -/
  | .shards => [52, 48, 57, 54] /- 4096 -/
  | .backlog => [49, 48, 50, 52] /- 1024 -/
  | .queuesize => [49, 50, 56] /- 128 -/
  | .maxmemory => [56, 48, 37] /- 80% -/
  | .evict => [121, 101, 115] /- yes -/
  | .loadfactor => [55, 53] /- 75 -/
  | .sixpack => [121, 101, 115] /- yes -/
  | .trackallocs => [110, 111] /- no -/
  | .uring => [121, 101, 115] /- yes -/
  | .maxconns => [49, 48, 50, 52] /- 1024 -/
  | .autosweep => [121, 101, 115] /- yes -/
  | .warmup => [121, 101, 115] /- yes -/
  | .allocator => [109, 105, 109, 97, 108, 108, 111, 99] /- mimalloc -/
  | .verb => [48] /- 0 -/
  | .seed => [48] /- 0 -/
  | _ => []

/-- The value of a variable after the command line. -/
def value (st : List (Var × Bytes)) (v : Var) : Bytes := (st.lookup v).getD (default v)

/-! ### Checking, `/repo/src/main.c:574-768` -/

def yes : Bytes := [121, 101, 115]
def no : Bytes := [110, 111]

/-- A yes/no option, e.g. `/repo/src/main.c:588-594`; `none`: `INVALID_FLAG`. -/
def yesNo (t : Bytes) : Option Bool := if t = yes then some true else if t = no then some false else none

/-- `atoi` of the C library: `(int)strtol(t, 0, 10)`; `strtol` stops at the first byte that is no digit and keeps to 64 bits. -/
def atoi (t : Bytes) : Int :=
  let s := Num.strtoScan t
  let n : Int := Num.digitsVal 0 s.2.1
  let l := if s.1 then max (-n) (-(2 ^ 63)) else min n (2 ^ 63 - 1)
  (l + 2 ^ 31) % 2 ^ 32 - 2 ^ 31

/-- `struct pogocache_opts` as given to `pogocache_new`, `/repo/src/main.c:750-759`: the fields that are not mentioned are zero. -/
structure CacheOpts where
  nshards : Int
  loadfactor : Int
  usecas : Bool
  allowshrink : Bool
  nosixpack : Bool
  noevict : Bool
deriving DecidableEq, Repr

/-- The checked options; those given to `net_main` and the cache, and the global variables. -/
structure Config where
  nthreads : Int
  nshards : Int
  queuesize : Int
  maxconns : Int
  loadfactor : Int
  useevict : Bool
  usereuseport : Bool
  usetrackallocs : Bool
  usetcpnodelay : Bool
  usekeepalive : Bool
  usecas : Bool
  useautosweep : Bool
  useuring : Bool
  usequickack : Bool
  usesixpack : Bool
  useauth : Bool
  cache : CacheOpts
deriving DecidableEq, Repr

/-- `/repo/src/main.c:574-580`. -/
def threads (nprocs n : Int) : Int := if n ≤ 0 then nprocs else if n > 4096 then 4096 else n

/-- `/repo/src/main.c:583-587`. -/
def shards (n : Int) : Int := if n ≤ 0 then 4096 else if n > 65536 then 65536 else n

/-- `/repo/src/main.c:640-642`. -/
def conns (n : Int) : Int := if n ≤ 0 then 1024 else n

/-- `/repo/src/main.c:691-697`. -/
def factor (n : Int) : Int := if n < 55 then 55 else if n > 95 then 95 else n

/-- `/repo/src/main.c:699-705`. -/
def queue (n : Int) : Int := if n < 1 then 1 else if n > 4096 then 4096 else n

/-- `/repo/src/main.c:644-650`: the second comparison is of `usecas`. -/
def sweepFlag (autosweep cas : Bytes) : Option Bool := if autosweep = yes then some true else if cas = no then some false else none

/-- The port options, `/repo/src/main.c:714-737`; only what makes the program end. -/
def portOk (t : Bytes) : Bool := t = [] || t = [48] || (match Num.parseU64 t with | some n => n ≤ 0xffff | none => false)

/-- `!*port || strcmp(port, "0") == 0`. -/
def noPort (t : Bytes) : Bool := t = [] || t = [48]

/-- `unlimited`. -/
def unlimited : Bytes := [117, 110, 108, 105, 109, 105, 116, 101, 100]

/-- The checks in `main`, `/repo/src/main.c:551-768`; `none` if the program ends. -/
def check (nprocs : Int) (uringAvail : Bool) (allocOk memok : Bytes → Bool) (val : Var → Bytes) : Option Config := do
  guard (allocOk (val .allocator))
  let useevict ← yesNo (val .evict)
  let usereuseport ← yesNo (val .reuseport)
  let usetrackallocs ← yesNo (val .trackallocs)
  let usetcpnodelay ← yesNo (val .tcpnodelay)
  let usekeepalive ← yesNo (val .keepalive)
  let usecas ← yesNo (val .cas)
  let useautosweep ← sweepFlag (val .autosweep) (val .cas)
  let useuring ← yesNo (val .uring)
  let usequickack ← yesNo (val .quickack)
  let usesixpack ← yesNo (val .sixpack)
  guard (portOk (val .port))
  guard (portOk (val .tlsport))
  guard (!(noPort (val .port) && noPort (val .tlsport) && val .unixsock = []))
  guard (memok (val .maxmemory))
  some
    { nthreads := threads nprocs (atoi (val .threads)), nshards := shards (atoi (val .shards)), queuesize := queue (atoi (val .queuesize)),
      maxconns := conns (atoi (val .maxconns)), loadfactor := factor (atoi (val .loadfactor)),
      useevict := useevict && val .maxmemory ≠ unlimited, usereuseport, usetrackallocs, usetcpnodelay, usekeepalive, usecas, useautosweep,
      useuring := useuring && uringAvail, usequickack, usesixpack, useauth := val .auth ≠ [],
      cache := { nshards := shards (atoi (val .shards)), loadfactor := factor (atoi (val .loadfactor)), usecas, allowshrink := true,
                 nosixpack := false, noevict := false } }

/-- The context of the cache made from these options, `/repo/src/pogocache.c:1180-1210`, with the hash function `H`. -/
def CacheOpts.ctx (o : CacheOpts) (H : Bytes → Nat) : Map.Ctx := ⟨o.usecas, o.nosixpack, o.noevict, o.allowshrink, Map.clampLf o.loadfactor, H⟩

/-- The values as they are checked: `-m` takes the place of `--maxmemory`, `/repo/src/main.c:707-712`. -/
def settle (st : List (Var × Bytes)) (v : Var) : Bytes :=
  if v = .maxmemory then
    match st.lookup .maxmemorymb with
    | some t => t ++ [77]
    | none => value st v
  else value st v

/-- `main` up to `net_main`. -/
def start (nprocs : Int) (uringAvail : Bool) (allocOk memok : Bytes → Bool) (args : List Bytes) : Option Config :=
  (parseArgs args []).bind fun st => check nprocs uringAvail allocOk memok (settle st)

/-! ### Specification -/

/-- A public option with a value, as listed by `--help` (`/repo/src/main.c:138-178`), and what it is about. -/
def options : List (Bytes × Var) :=
  [([45, 45, 116, 104, 114, 101, 97, 100, 115], .threads) /- --threads -/,
   ([45, 45, 109, 97, 120, 109, 101, 109, 111, 114, 121], .maxmemory) /- --maxmemory -/,
   ([45, 45, 101, 118, 105, 99, 116], .evict) /- --evict -/,
   ([45, 45, 112, 101, 114, 115, 105, 115, 116], .persist) /- --persist -/,
   ([45, 45, 109, 97, 120, 99, 111, 110, 110, 115], .maxconns) /- --maxconns -/,
   ([45, 45, 97, 117, 116, 104], .auth) /- --auth -/,
   ([45, 45, 116, 108, 115, 112, 111, 114, 116], .tlsport) /- --tlsport -/,
   ([45, 45, 116, 108, 115, 99, 101, 114, 116], .tlscert) /- --tlscert -/,
   ([45, 45, 116, 108, 115, 107, 101, 121], .tlskey) /- --tlskey -/,
   ([45, 45, 116, 108, 115, 99, 97, 99, 101, 114, 116], .tlscacert) /- --tlscacert -/,
   ([45, 45, 115, 104, 97, 114, 100, 115], .shards) /- --shards -/,
   ([45, 45, 98, 97, 99, 107, 108, 111, 103], .backlog) /- --backlog -/,
   ([45, 45, 113, 117, 101, 117, 101, 115, 105, 122, 101], .queuesize) /- --queuesize -/,
   ([45, 45, 114, 101, 117, 115, 101, 112, 111, 114, 116], .reuseport) /- --reuseport -/,
   ([45, 45, 116, 99, 112, 110, 111, 100, 101, 108, 97, 121], .tcpnodelay) /- --tcpnodelay -/,
   ([45, 45, 113, 117, 105, 99, 107, 97, 99, 107], .quickack) /- --quickack -/,
   ([45, 45, 117, 114, 105, 110, 103], .uring) /- --uring -/,
   ([45, 45, 108, 111, 97, 100, 102, 97, 99, 116, 111, 114], .loadfactor) /- --loadfactor -/,
   ([45, 45, 97, 117, 116, 111, 115, 119, 101, 101, 112], .autosweep) /- --autosweep -/,
   ([45, 45, 115, 105, 120, 112, 97, 99, 107], .sixpack) /- --sixpack -/,
   ([45, 45, 99, 97, 115], .cas) /- --cas -/,
   ([45, 45, 97, 108, 108, 111, 99, 97, 116, 111, 114], .allocator) /- --allocator -/]

/-- An option as a user writes it: the name and the value as two arguments, or joined by `=`. -/
structure Given where
  name : Bytes
  var : Var
  text : Bytes
  joined : Bool

def Given.words (g : Given) : List Bytes := if g.joined then [g.name ++ [61] ++ g.text] else [g.name, g.text]

/-- The last option of a list which is about `v`, if there is one. -/
def Last (gs : List Given) (v : Var) (t : Bytes) : Prop :=
  ∃ a b g, gs = a ++ g :: b ∧ g.var = v ∧ g.text = t ∧ ∀ g' ∈ b, g'.var ≠ v

/-! ### Proofs -/

theorem flagAt_next {name : Bytes} {v : Var} (h : (name, v) ∈ options) : flagAt flags name = .next v := by
  have : ∀ p ∈ options, flagAt flags p.1 = .next p.2 := by decide +kernel
  exact this _ h

/-- No flag's name is the joined form of an option, and no long flag but its own begins it. -/
theorem flagAt_joined {name : Bytes} {v : Var} (h : (name, v) ∈ options) (t : Bytes) : flagAt flags (name ++ [61] ++ t) = .sets v t := by
  have eqchar : ∀ {p q : Bytes} {t u : Bytes}, (61 : UInt8) ∉ p → (61 : UInt8) ∉ q → p ++ [61] ++ t = q ++ [61] ++ u → p = q := by
    intro p
    induction p with
    | nil =>
      intro q t u _ hq he
      cases q with
      | nil => rfl
      | cons c q =>
        simp only [List.nil_append, List.cons_append, List.cons.injEq] at he
        exact absurd (by rw [← he.1]; exact List.mem_cons_self) hq
    | cons c p ih =>
      intro q t u hp hq he
      cases q with
      | nil =>
        simp only [List.nil_append, List.cons_append, List.cons.injEq] at he
        exact absurd (by rw [he.1]; exact List.mem_cons_self) hp
      | cons d q =>
        simp only [List.cons_append, List.cons.injEq] at he
        rw [he.1, ih (fun h => hp (List.mem_cons_of_mem _ h)) (fun h => hq (List.mem_cons_of_mem _ h)) he.2]
  have noeq : ∀ p ∈ options, (61 : UInt8) ∉ p.1 := by decide
  have hn := noeq _ h
  -- the search through the flags
  have key : ∀ (l : List Flag) (name : Bytes) (v : Var), (61 : UInt8) ∉ name → flagAt l name = .next v →
      (∀ f ∈ l, match f with
        | .short n _ => n ≠ name ∧ (61 : UInt8) ∉ n
        | .toggle n _ _ => n ≠ name ∧ (61 : UInt8) ∉ n
        | .long n _ => (61 : UInt8) ∉ n) → flagAt l (name ++ [61] ++ t) = .sets v t := by
    intro l
    induction l with
    | nil => intro name v _ h _; simp [flagAt] at h
    | cons f l ih =>
      intro name v hn hf hl
      have hf0 := hl f List.mem_cons_self
      have notname : ∀ {n : Bytes}, (61 : UInt8) ∉ n → ¬ name ++ [61] ++ t = n := by
        rintro n h rfl
        simp at h
      cases f with
      | short n w =>
        simp only at hf0
        rw [flagAt, if_neg (notname hf0.2)]
        rw [flagAt, if_neg (fun h => hf0.1 h.symm)] at hf
        exact ih name v hn hf fun f h => hl f (List.mem_cons_of_mem _ h)
      | toggle n w val =>
        simp only at hf0
        rw [flagAt, if_neg (notname hf0.2)]
        rw [flagAt, if_neg (fun h => hf0.1 h.symm)] at hf
        exact ih name v hn hf fun f h => hl f (List.mem_cons_of_mem _ h)
      | long n w =>
        simp only at hf0
        have hd : (61 : UInt8) ∉ dashes ++ n := by simp [dashes, hf0]
        rw [flagAt, if_neg (notname hd)]
        rw [flagAt] at hf
        by_cases he : name = dashes ++ n
        · rw [if_pos he] at hf
          rw [if_pos (by rw [he, List.isPrefixOf_iff_prefix]; exact ⟨t, rfl⟩)]
          simp only [Arg.next.injEq] at hf
          rw [hf, he]
          congr 1
          have : n.length + 3 = (dashes ++ n ++ [61]).length := by simp [dashes]
          rw [this, List.drop_left]
        · rw [if_neg he] at hf
          have h1 : ¬ (dashes ++ n ++ [61]).isPrefixOf name = true := by
            rw [List.isPrefixOf_iff_prefix]
            rintro ⟨r, hr⟩
            exact hn (by rw [← hr]; simp)
          rw [if_neg h1] at hf
          rw [if_neg]
          · exact ih name v hn hf fun f h => hl f (List.mem_cons_of_mem _ h)
          · rw [List.isPrefixOf_iff_prefix]
            rintro ⟨r, hr⟩
            exact he (eqchar hn hd hr.symm)
  refine key flags name v hn (flagAt_next h) ?_
  have : ∀ p ∈ options, ∀ f ∈ flags, (match f with
        | .short n _ => n ≠ p.1 ∧ (61 : UInt8) ∉ n
        | .toggle n _ _ => n ≠ p.1 ∧ (61 : UInt8) ∉ n
        | .long n _ => (61 : UInt8) ∉ n) := by
    intro p hp f hf
    have h2 : ∀ p ∈ options, p.1.length > 4 := by decide
    have h4 : (∀ f ∈ flags, match f with
        | .short n _ => n.length ≤ 4 ∧ (61 : UInt8) ∉ n
        | .toggle n _ _ => n.length ≤ 4 ∧ (61 : UInt8) ∉ n
        | .long n _ => (61 : UInt8) ∉ n) := by
      intro f hf
      simp only [flags, List.mem_cons, List.not_mem_nil, or_false] at hf
      rcases hf with rfl | rfl | rfl | rfl | rfl | rfl | rfl | rfl | rfl | rfl | rfl | rfl | rfl | rfl | rfl | rfl | rfl | rfl | rfl | rfl |
        rfl | rfl | rfl | rfl | rfl | rfl | rfl | rfl | rfl | rfl | rfl | rfl | rfl | rfl | rfl | rfl | rfl <;> simp
    have h3 := h4 f hf
    have h5 := h2 p hp
    cases f with
    | short n w => exact ⟨fun h => by simp only at h3; rw [h] at h3; omega, h3.2⟩
    | toggle n w val => exact ⟨fun h => by simp only at h3; rw [h] at h3; omega, h3.2⟩
    | long n w => exact h3
  exact this _ h

theorem not_help {p : Bytes × Var} (h : p ∈ options) (g : Bytes) : p.1 ≠ [45, 45, 104, 101, 108, 112] ∧ p.1 ≠ [45, 45, 118, 101, 114, 115, 105, 111, 110] ∧
    p.1 ++ [61] ++ g ≠ [45, 45, 104, 101, 108, 112] ∧ p.1 ++ [61] ++ g ≠ [45, 45, 118, 101, 114, 115, 105, 111, 110] := by
  have h1 : ∀ p ∈ options, p.1 ≠ [45, 45, 104, 101, 108, 112] ∧ p.1 ≠ [45, 45, 118, 101, 114, 115, 105, 111, 110] := by decide
  refine ⟨(h1 p h).1, (h1 p h).2, ?_, ?_⟩
  · intro he
    have : (61 : UInt8) ∈ ([45, 45, 104, 101, 108, 112] : Bytes) := by rw [← he]; simp
    exact absurd this (by decide)
  · intro he
    have : (61 : UInt8) ∈ ([45, 45, 118, 101, 114, 115, 105, 111, 110] : Bytes) := by rw [← he]; simp
    exact absurd this (by decide)

theorem parse_given (gs : List Given) (hg : ∀ g ∈ gs, (g.name, g.var) ∈ options) (st : List (Var × Bytes)) :
    parseArgs (gs.flatMap Given.words) st = some ((gs.map fun g => (g.var, g.text)).reverse ++ st) := by
  induction gs generalizing st with
  | nil => rfl
  | cons g l ih =>
    have hm := hg g List.mem_cons_self
    obtain ⟨n1, n2, n3, n4⟩ := not_help hm g.text
    simp only at n1 n2 n3 n4
    have ih' := ih (fun g h => hg g (List.mem_cons_of_mem _ h)) ((g.var, g.text) :: st)
    rw [List.flatMap_cons, List.map_cons, List.reverse_cons, List.append_assoc]
    cases hj : g.joined with
    | false =>
      simp only [Given.words, hj, Bool.false_eq_true, if_false, List.cons_append, List.nil_append]
      rw [parseArgs, if_neg (by rintro (h | h); exact n1 h; exact n2 h), flagAt_next hm]
      exact ih'
    | true =>
      simp only [Given.words, hj, if_true, List.cons_append, List.nil_append]
      rw [parseArgs, if_neg (by rintro (h | h); exact n3 h; exact n4 h), flagAt_joined hm]
      exact ih'

/-- **C66.**  A command line made of public options, each written as `--name value` or `--name=value`, with any values, is understood; the
value of an option is the last one given, and the default if none is given. -/
theorem last_option_wins (gs : List Given) (hg : ∀ g ∈ gs, (g.name, g.var) ∈ options) :
    ∃ st, parseArgs (gs.flatMap Given.words) [] = some st ∧
      (∀ v t, Last gs v t → value st v = t) ∧ (∀ v, (∀ g ∈ gs, g.var ≠ v) → value st v = default v) := by
  refine ⟨_, parse_given gs hg [], ?_, ?_⟩
  · rintro v t ⟨a, b, g, rfl, rfl, rfl, hb⟩
    have : ∀ (b : List Given) (r : List (Var × Bytes)), (∀ g' ∈ b, g'.var ≠ g.var) →
        ((b.map fun g => (g.var, g.text)).reverse ++ r).lookup g.var = r.lookup g.var := by
      intro b
      induction b with
      | nil => intro r _; rfl
      | cons g' b ih =>
        intro r hb
        rw [List.map_cons, List.reverse_cons, List.append_assoc, ih _ (fun g h => hb g (List.mem_cons_of_mem _ h)), List.cons_append,
          List.nil_append, List.lookup_cons]
        have : (g.var == g'.var) = false := by simpa using fun h => hb g' List.mem_cons_self h.symm
        rw [this]
    unfold value
    rw [List.append_nil, List.map_append, List.map_cons, List.reverse_append, List.reverse_cons, List.append_assoc, this b _ hb]
    simp
  · intro v hv
    unfold value
    have : ((gs.map fun g : Given => (g.var, g.text)).reverse ++ []).lookup v = none := by
      rw [List.lookup_eq_none_iff]
      intro p hp
      simp only [List.append_nil, List.mem_reverse, List.mem_map] at hp
      obtain ⟨g, h1, rfl⟩ := hp
      simpa using fun h => hv g h1 h.symm
    rw [this]; rfl

/-- `--threads 4 --cas=yes --threads=8`. -/
example : (∀ g ∈ [(⟨[45, 45, 116, 104, 114, 101, 97, 100, 115], .threads, [52], false⟩ : Given), ⟨[45, 45, 99, 97, 115], .cas, yes, true⟩,
      ⟨[45, 45, 116, 104, 114, 101, 97, 100, 115], .threads, [56], true⟩], (g.name, g.var) ∈ options) ∧
    Last [⟨[45, 45, 116, 104, 114, 101, 97, 100, 115], .threads, [52], false⟩, ⟨[45, 45, 99, 97, 115], .cas, yes, true⟩,
      ⟨[45, 45, 116, 104, 114, 101, 97, 100, 115], .threads, [56], true⟩] .threads [56] := by
  refine ⟨by decide, [⟨[45, 45, 116, 104, 114, 101, 97, 100, 115], .threads, [52], false⟩, ⟨[45, 45, 99, 97, 115], .cas, yes, true⟩], [],
    ⟨[45, 45, 116, 104, 114, 101, 97, 100, 115], .threads, [56], true⟩, rfl, rfl, rfl, by simp⟩

/-! ### C52 -/

/-- The text of a number, as a user would write it (`Num.NumText`-like): decimal digits, perhaps with a sign. -/
inductive Writes : Bytes → Int → Prop
  | pos {d : Bytes} {n : Nat} : d ≠ [] → (∀ c ∈ d, 48 ≤ c.toNat ∧ c.toNat ≤ 57) → d.foldl (fun a c => a * 10 + (c.toNat - 48)) 0 = n → Writes d n
  | neg {d : Bytes} {n : Nat} : d ≠ [] → (∀ c ∈ d, 48 ≤ c.toNat ∧ c.toNat ≤ 57) → d.foldl (fun a c => a * 10 + (c.toNat - 48)) 0 = n →
      Writes (45 :: d) (-n)

theorem foldl_digitsVal (t : Bytes) (h : ∀ c ∈ t, 48 ≤ c.toNat ∧ c.toNat ≤ 57) (a : Nat) :
    t.foldl (fun a c => a * 10 + (c.toNat - 48)) a = Num.digitsVal a t := by
  induction t generalizing a with
  | nil => rfl
  | cons c t ih =>
    have h48 : (c - 48).toNat = c.toNat - 48 := by
      rw [UInt8.toNat_sub_of_le _ _ (by rw [UInt8.le_iff_toNat_le]; exact (h c (List.mem_cons_self)).1)]; rfl
    rw [List.foldl_cons, Num.digitsVal, h48]
    exact ih (fun c hc' => h c (List.mem_cons_of_mem _ hc')) _

theorem digit_isDigit {c : UInt8} (h : 48 ≤ c.toNat ∧ c.toNat ≤ 57) : Num.isDigit c = true := by
  unfold Num.isDigit
  rw [Bool.and_eq_true, decide_eq_true_eq, decide_eq_true_eq, UInt8.le_iff_toNat_le, UInt8.le_iff_toNat_le]
  exact h

theorem atoi_writes {t : Bytes} {n : Int} (h : Writes t n) (h1 : -(2 ^ 31) ≤ n) (h2 : n < 2 ^ 31) : atoi t = n := by
  cases h with
  | @pos d n hne hd hv =>
    unfold atoi
    rw [Num.strtoScan_digits hne fun c hc => digit_isDigit (hd c hc)]
    simp only
    rw [foldl_digitsVal _ hd] at hv
    rw [hv]
    simp only [Bool.false_eq_true, if_false]
    have : min (n : Int) (2 ^ 63 - 1) = n := by omega
    rw [this]
    omega
  | @neg d n hne hd hv =>
    unfold atoi
    rw [Num.strtoScan_neg fun c hc => digit_isDigit (hd c hc)]
    simp only
    rw [foldl_digitsVal _ hd] at hv
    rw [hv]
    simp only [if_true]
    have : max (-(n : Int)) (-(2 ^ 63)) = -n := by omega
    rw [this]
    omega

/-- The nearest number between `lo` and `hi`. -/
def nearest (lo hi n : Int) : Int := max lo (min hi n)

/-- A yes/no option is obeyed. -/
def Obeys (t : Bytes) (b : Bool) : Prop := (t = yes ∧ b = true) ∨ (t = no ∧ b = false)

theorem yesNo_obeys {t : Bytes} {b : Bool} (h : yesNo t = some b) : Obeys t b := by
  unfold yesNo at h
  split at h
  · rename_i h1; exact .inl ⟨h1, (Option.some.inj h).symm⟩
  · split at h
    · rename_i h1; exact .inr ⟨h1, (Option.some.inj h).symm⟩
    · cases h

/-- **C52, partial.**  If the program starts, each of the options reuseport, trackallocs, tcpnodelay, keepalive, cas and quickack was yes or no
and is obeyed (also by the cache: cas); io_uring is used exactly if asked for and available; a password is required exactly if a non-empty one is given; a
number that fits an `int` is used as given if it is in the range and otherwise replaced by the bound (threads, shards and maxconns: by the
default if it is not positive).  Missing: evict, sixpack, autosweep, and larger numbers; see below. -/
theorem options_obeyed_partial {nprocs : Int} {uringAvail : Bool} {allocOk memok : Bytes → Bool} {val : Var → Bytes} {cfg : Config}
    (h : check nprocs uringAvail allocOk memok val = some cfg) :
    (Obeys (val .reuseport) cfg.usereuseport ∧ Obeys (val .trackallocs) cfg.usetrackallocs ∧ Obeys (val .tcpnodelay) cfg.usetcpnodelay ∧
      Obeys (val .keepalive) cfg.usekeepalive ∧ Obeys (val .cas) cfg.usecas ∧ Obeys (val .cas) cfg.cache.usecas ∧
      Obeys (val .quickack) cfg.usequickack) ∧
    (cfg.useuring = true ↔ val .uring = yes ∧ uringAvail = true) ∧
    (cfg.useauth = true ↔ val .auth ≠ []) ∧
    (∀ n, Writes (val .threads) n → -(2 ^ 31) ≤ n → n < 2 ^ 31 → cfg.nthreads = if 0 < n then nearest 1 4096 n else nprocs) ∧
    (∀ n, Writes (val .shards) n → -(2 ^ 31) ≤ n → n < 2 ^ 31 → cfg.nshards = if 0 < n then nearest 1 65536 n else 4096) ∧
    (∀ n, Writes (val .shards) n → -(2 ^ 31) ≤ n → n < 2 ^ 31 → cfg.cache.nshards = if 0 < n then nearest 1 65536 n else 4096) ∧
    (∀ n, Writes (val .maxconns) n → -(2 ^ 31) ≤ n → n < 2 ^ 31 → cfg.maxconns = if 0 < n then n else 1024) ∧
    (∀ n, Writes (val .loadfactor) n → -(2 ^ 31) ≤ n → n < 2 ^ 31 → cfg.cache.loadfactor = nearest 55 95 n ∧
      Map.clampLf cfg.cache.loadfactor = nearest 55 95 n) ∧
    (∀ n, Writes (val .queuesize) n → -(2 ^ 31) ≤ n → n < 2 ^ 31 → cfg.queuesize = nearest 1 4096 n) := by
  simp only [check, bind, Option.bind_eq_some_iff, Option.some.injEq] at h
  obtain ⟨_, _, b1, e1, b2, e2, b3, e3, b4, e4, b5, e5, b6, e6, b7, e7, b8, e8, b9, e9, b10, e10, _, _, _, _, _, _, _, _, rfl⟩ := h
  refine ⟨⟨yesNo_obeys e2, yesNo_obeys e3, yesNo_obeys e4, yesNo_obeys e5, yesNo_obeys e6, yesNo_obeys e6, yesNo_obeys e9⟩, ?_, ?_, ?_, ?_, ?_, ?_, ?_, ?_⟩
  · simp only [Bool.and_eq_true]
    rcases yesNo_obeys e8 with ⟨h1, h2⟩ | ⟨h1, h2⟩
    · simp [h1, h2]
    · rw [h1, h2]; simp [yes, no]
  · simp
  · intro n hn h1 h2
    simp only [atoi_writes hn h1 h2, threads, nearest]
    split <;> split <;> (try split) <;> omega
  · intro n hn h1 h2
    simp only [atoi_writes hn h1 h2, shards, nearest]
    split <;> split <;> (try split) <;> omega
  · intro n hn h1 h2
    simp only [atoi_writes hn h1 h2, shards, nearest]
    split <;> split <;> (try split) <;> omega
  · intro n hn h1 h2
    simp only [atoi_writes hn h1 h2, conns]
    split <;> split <;> omega
  · intro n hn h1 h2
    simp only [atoi_writes hn h1 h2]
    have hf : factor n = nearest 55 95 n := by
      unfold factor nearest
      split <;> (try split) <;> omega
    refine ⟨hf, ?_⟩
    rw [hf]
    unfold Map.clampLf nearest
    split
    · omega
    · split
      · omega
      · split <;> omega
  · intro n hn h1 h2
    simp only [atoi_writes hn h1 h2, queue, nearest]
    split <;> (try split) <;> omega

/-- Everything as given by the defaults, and `--threads 5000 --cas yes`. -/
example : (start 8 true (fun _ => true) (fun _ => true) [[45, 45, 116, 104, 114, 101, 97, 100, 115], [53, 48, 48, 48], [45, 45, 99, 97, 115], yes]).map
    (fun c => (c.nthreads, c.cache)) = some (4096, ⟨4096, 75, true, true, false, false⟩) := by decide +kernel

example : Writes [53, 48, 48, 48] 5000 := .pos (n := 5000) (by simp) (by decide) (by decide)

/-- **C52.**  If the program starts, a port is at most 65535 (for each number below 2^64 as text), and there is a port, a TLS port or a socket to listen at. -/
theorem ports_checked {nprocs : Int} {uringAvail : Bool} {allocOk memok : Bytes → Bool} {val : Var → Bytes} {cfg : Config}
    (h : check nprocs uringAvail allocOk memok val = some cfg) :
    (∀ v ∈ [Var.port, .tlsport], ∀ x < 2 ^ 64, val v = Num.u64toa x → x ≤ 65535) ∧
    ¬ (val .port ∈ [[], [48]] ∧ val .tlsport ∈ [[], [48]] ∧ val .unixsock = []) := by
  simp only [check, bind, Option.bind_eq_some_iff, Option.some.injEq] at h
  obtain ⟨_, _, b1, e1, b2, e2, b3, e3, b4, e4, b5, e5, b6, e6, b7, e7, b8, e8, b9, e9, b10, e10, _, h1, _, h2, _, h3, _, _, rfl⟩ := h
  have key : ∀ t x, portOk t = true → x < 2 ^ 64 → t = Num.u64toa x → x ≤ 65535 := by
    rintro t x hp hx rfl
    unfold portOk at hp
    rw [Num.u64_text_roundtrip x hx] at hp
    simp only [Bool.or_eq_true, decide_eq_true_eq] at hp
    rcases hp with (hp | hp) | hp
    · exact absurd hp (Num.u64toa_ne_nil x)
    · have := Num.u64_text_roundtrip x hx
      rw [hp] at this
      have e : Num.parseU64 [48] = some 0 := by decide
      rw [e] at this
      cases this
      decide
    · exact hp
  have g1 : portOk (val .port) = true := by
    by_contra hc
    simp [guard, hc] at h1
  have g2 : portOk (val .tlsport) = true := by
    by_contra hc
    simp [guard, hc] at h2
  refine ⟨fun v hv x hx he => ?_, ?_⟩
  · simp only [List.mem_cons, List.not_mem_nil, or_false] at hv
    rcases hv with rfl | rfl
    · exact key _ x g1 hx he
    · exact key _ x g2 hx he
  · rintro ⟨k1, k2, k3⟩
    have e1 : noPort (val .port) = true := by unfold noPort; simpa using k1
    have e2 : noPort (val .tlsport) = true := by unfold noPort; simpa using k2
    simp [guard, e1, e2, k3] at h3

/-- `-p 65535` is taken, `-p 65536` is not; nor is `-p 0` alone, but it is with a socket. -/
example : [[[45, 112], [54, 53, 53, 51, 53]], [[45, 112], [54, 53, 53, 51, 54]], [[45, 112], [48]], [[45, 112], [48], [45, 115], [120]]].map
    (fun args => (start 8 true (fun _ => true) (fun _ => true) args).isSome) = [true, false, false, true] ∧ Num.u64toa 65535 = [54, 53, 53, 51, 53] := by decide +kernel

/-- The values that options have when they are not given, as the help page shows them. -/
example : [Var.port, .host, .reuseport, .tcpnodelay, .quickack, .cas, .keepalive, .threads, .shards, .backlog, .queuesize, .maxmemory, .evict, .loadfactor,
      .sixpack, .trackallocs, .uring, .maxconns, .autosweep, .warmup].map default =
    ["9401", "127.0.0.1", "no", "yes", "no", "no", "yes", "0", "4096", "1024", "128", "80%", "yes", "75",
      "yes", "no", "yes", "1024", "yes", "yes"].map (·.toUTF8.toList) := by decide +kernel

/-- **C52, negation: `--evict no` and `--sixpack no` do nothing.**  Whatever is given, the cache is made with eviction and with packed keys. -/
theorem evict_and_sixpack_ignored {nprocs : Int} {uringAvail : Bool} {allocOk memok : Bytes → Bool} {val : Var → Bytes} {cfg : Config}
    (h : check nprocs uringAvail allocOk memok val = some cfg) : cfg.cache.noevict = false ∧ cfg.cache.nosixpack = false := by
  simp only [check, bind, Option.bind_eq_some_iff, Option.some.injEq] at h
  obtain ⟨_, _, b1, e1, b2, e2, b3, e3, b4, e4, b5, e5, b6, e6, b7, e7, b8, e8, b9, e9, b10, e10, _, _, _, _, _, _, _, _, rfl⟩ := h
  exact ⟨rfl, rfl⟩

/-- A hash function for the example. -/
def someHash (k : Bytes) : Nat := 2 ^ 40 * k.length + k.head!.toNat

open Verif.Cmd in
/-- With `--evict no --shards 1`: two keys are stored, then, while memory is low, a third: one of the first two is gone. -/
theorem evict_no_evicts :
    (start 8 true (fun _ => true) (fun _ => true) [[45, 45, 101, 118, 105, 99, 116], no, [45, 45, 115, 104, 97, 114, 100, 115], [49]]).bind (fun cfg =>
      replies (cfg.cache.ctx someHash) cfg.cache.nshards.toNat
        [(at_ .resp 1000, [setName, [97], [49]]), (at_ .resp 1000, [setName, [98], [50]]),
         (⟨2000, 2000 + 10 ^ 18, true, .resp⟩, [setName, [99], [51]]),
         (at_ .resp 3000, [getName, [97]]), (at_ .resp 3000, [getName, [98]]), (at_ .resp 3000, [getName, [99]])]) =
    some [[.str [79, 75]], [.str [79, 75]], [.str [79, 75]], [.bulk [49]], [.null], [.bulk [51]]] := by
  decide +kernel

/-- **C52, negation: `--autosweep`.**  `--autosweep no` together with `--cas yes` is refused; `--autosweep` with any other text is
accepted (and means no). -/
theorem autosweep_confused :
    start 8 true (fun _ => true) (fun _ => true) [[45, 45, 97, 117, 116, 111, 115, 119, 101, 101, 112], no, [45, 45, 99, 97, 115], yes] = none ∧
    (start 8 true (fun _ => true) (fun _ => true) [[45, 45, 97, 117, 116, 111, 115, 119, 101, 101, 112], [109, 97, 121, 98, 101]]).map (·.useautosweep) = some false := by
  decide +kernel

/-- **C52, negation: large numbers.**  `--threads 4294967297` (2^32+1) means one thread, `--maxconns 4294967295` the default. -/
theorem large_numbers_wrap :
    (start 8 true (fun _ => true) (fun _ => true) [[45, 45, 116, 104, 114, 101, 97, 100, 115], [52, 50, 57, 52, 57, 54, 55, 50, 57, 55], [45, 45, 109, 97, 120, 99, 111, 110, 110, 115], [52, 50, 57, 52, 57, 54, 55, 50, 57, 53]]).map
      (fun c => (c.nthreads, c.maxconns)) = some (1, 1024) := by
  decide +kernel

end Verif.Main
