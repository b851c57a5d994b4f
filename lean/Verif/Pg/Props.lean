import Mathlib.Tactic.Common
import Verif.Pg.Query

/-!
C41: prepared statements; C42: quoted strings.
-/

namespace Verif.Pg

open Verif.Num Verif.Resp
open Verif.Http (upTo upTo_exact)

/-! ### Messages -/

/-- A number of 16 bits, most significant byte first. -/
def be16 (n : Nat) : Bytes := [UInt8.ofNat (n / 256), UInt8.ofNat (n % 256)]

/-- A number of 32 bits, most significant byte first. -/
def be32 (n : Nat) : Bytes := [UInt8.ofNat (n / 16777216), UInt8.ofNat (n / 65536 % 256), UInt8.ofNat (n / 256 % 256), UInt8.ofNat (n % 256)]

/-- The contents of a Parse message: name, query, types. -/
def parseMsg (name query : Bytes) (types : List Nat) : Bytes :=
  name ++ [0] ++ query ++ [0] ++ be16 types.length ++ types.flatMap be32

/-- The contents of a Bind message: portal, statement, formats of the parameters, parameters, formats of the results. -/
def bindMsg (portal stmt : Bytes) (fs : List Nat) (ps : List Bytes) (rs : List Nat) : Bytes :=
  portal ++ [0] ++ stmt ++ [0] ++ be16 fs.length ++ fs.flatMap be16 ++ be16 ps.length ++ ps.flatMap (fun p => be32 p.length ++ p) ++
    be16 rs.length ++ rs.flatMap be16

/-- The contents of an Execute message: portal and a limit of rows. -/
def executeMsg (portal : Bytes) (limit : Nat) : Bytes := portal ++ [0] ++ be32 limit

/-- A message on the wire: type, length, contents. -/
def message (t : UInt8) (s : Bytes) : Bytes := t :: be32 (s.length + 4) ++ s

/-- Names of statements and portals: at most 63 bytes, no NUL. -/
def Name (n : Bytes) : Prop := n.length < 64 ∧ 0 ∉ n

theorem readU16_be16 {n : Nat} (h : n < 65536) : readU16 (UInt8.ofNat (n / 256)) (UInt8.ofNat (n % 256)) = n := by
  unfold readU16
  rw [UInt8.toNat_ofNat_of_lt' (by show n / 256 < 256; omega), UInt8.toNat_ofNat_of_lt' (by show n % 256 < 256; omega)]
  omega

theorem int16_be16 {n : Nat} (h : n < 65536) (s : Bytes) : int16 (be16 n ++ s) = some (n, s) := by
  show some (readU16 _ _, s) = _
  rw [readU16_be16 h]

theorem readI32_be32 {n : Nat} (h : n < 2147483648) :
    readI32 (UInt8.ofNat (n / 16777216)) (UInt8.ofNat (n / 65536 % 256)) (UInt8.ofNat (n / 256 % 256)) (UInt8.ofNat (n % 256)) = n := by
  unfold readI32
  rw [UInt8.toNat_ofNat_of_lt' (by show n / 16777216 < 256; omega), UInt8.toNat_ofNat_of_lt' (by show n / 65536 % 256 < 256; omega),
    UInt8.toNat_ofNat_of_lt' (by show n / 256 % 256 < 256; omega), UInt8.toNat_ofNat_of_lt' (by show n % 256 < 256; omega)]
  simp only []
  rw [if_pos (by omega)]
  omega

/-- A message is found with its type and contents, whatever follows. -/
theorem frame_message (t : UInt8) (s rest : Bytes) (ht : t ≠ 0) (hs : s.length + 4 < 2147483648) :
    frame (message t s ++ rest) = .got (.typed t s, (message t s).length) := by
  unfold message be32
  simp only [List.cons_append, List.nil_append]
  rw [frame]
  · rw [readI32_be32 hs]
    rw [if_neg (by omega), if_neg (by omega), if_neg (by simp), if_neg (by omega)]
    have : ((s.length + 4 : Nat) : Int).toNat - 4 = s.length := by omega
    rw [this, List.take_left]
    have : ((s.length + 4 : Nat) : Int).toNat = s.length + 4 := by omega
    rw [this]
    simp
  · intros; contradiction

theorem Piece.Ok.no_nul {p : Piece} (h : p.Ok) : 0 ∉ p.text := by
  cases p with
  | word w => intro hc; have := h.2 0 hc; simp at this
  | quoted t => simpa [Piece.text] using h.2
  | param n =>
    intro hc
    rcases List.mem_cons.1 hc with hc | hc
    · exact absurd hc (by decide)
    · exact absurd (u64toa_digits n 0 hc) (by decide)

theorem Valid.no_nul {q : Query} (h : Valid q) : 0 ∉ tailText q ∧ 0 ∉ text q := by
  induction q with
  | nil => simp [text, tailText]
  | cons x q ih =>
    have h1 := h.tail.1.no_nul
    have h2 := ih h.tail.2.1
    obtain ⟨g, p⟩ := x
    simp only [text, tailText, List.mem_append]
    cases g <;> simp_all

theorem cstr_exact (w s : Bytes) (h : 0 ∉ w) : cstr (w ++ 0 :: s) = some (w, s) :=
  upTo_exact 0 w s fun _ hb hc => h (hc ▸ hb)

theorem length_be32 (l : List Nat) : (l.flatMap be32).length = 4 * l.length := by
  induction l with
  | nil => rfl
  | cons a l ih => simp only [List.flatMap_cons, List.length_append, ih, List.length_cons]; simp [be32]; omega

theorem length_be16 (l : List Nat) : (l.flatMap be16).length = 2 * l.length := by
  induction l with
  | nil => rfl
  | cons a l ih => simp only [List.flatMap_cons, List.length_append, ih, List.length_cons]; simp [be16]; omega

theorem formats_exact (fs : List Nat) (h : ∀ f ∈ fs, f = 0 ∨ f = 1) (s : Bytes) : formats fs.length (fs.flatMap be16 ++ s) = some (some s) := by
  induction fs with
  | nil => rfl
  | cons f fs ih =>
    have hf := h f (by simp)
    rw [List.flatMap_cons, List.append_assoc, List.length_cons, formats, int16_be16 (by omega)]
    simp only []
    rw [if_neg (by omega), ih fun x hx => h x (by simp [hx])]

theorem params_exact (ps : List Bytes) (h : ∀ p ∈ ps, p.length < 2147483648) (s : Bytes) :
    params ps.length (ps.flatMap (fun p => be32 p.length ++ p) ++ s) = some (ps, s) := by
  induction ps with
  | nil => rfl
  | cons p ps ih =>
    have hp := h p (by simp)
    have hr : (readI32 (UInt8.ofNat (p.length / 16777216)) (UInt8.ofNat (p.length / 65536 % 256)) (UInt8.ofNat (p.length / 256 % 256))
        (UInt8.ofNat (p.length % 256))).toNat = p.length := by
      rw [readI32_be32 hp]; simp
    rw [List.flatMap_cons, List.append_assoc, List.append_assoc, List.length_cons]
    unfold be32
    simp only [List.cons_append, List.nil_append, params]
    rw [hr, if_neg (by simp), List.take_left, List.drop_left]
    have := ih fun x hx => h x (by simp [hx])
    unfold be32 at this
    simp only [List.cons_append, List.nil_append] at this
    rw [this]
    rfl

/-- A state with the same statements and portals. -/
def Same (a b : State) : Prop := a.statements = b.statements ∧ a.portals = b.portals

theorem parse_done (hash : Nat → Nat) (pw : Bytes) (pg : State) (name : Bytes) (hn : Name name) {q : Query} (h : Valid q)
    (hfirst : ∀ x, q.head? = some x → x.1 = false) (hp : EachOnce q) (types : List Nat) (ht : types.length < 65536) :
    handle hash pw pg (.typed 80 (parseMsg name (text q) types)) =
      .ok [] { pg with error := false, parse := true, statements := (name, ⟨(paramsOf q).length, toks q⟩) :: pg.statements } := by
  have : parseMsg name (text q) types = name ++ 0 :: (text q ++ 0 :: (be16 types.length ++ types.flatMap be32)) := by simp [parseMsg]
  show parseP hash _ _ = _
  rw [this, parseP, cstr_exact _ _ hn.2]
  simp only []
  rw [cstr_exact _ _ h.no_nul.2]
  simp only []
  rw [int16_be16 ht]
  simp only []
  rw [if_neg (by rw [length_be32]; simp), if_neg (by have := hn.1; omega), parseQuery_exact hash h hfirst hp]

theorem bind_done (hash : Nat → Nat) (pw : Bytes) (pg : State) (portal stmt : Bytes) (h1 : Name portal) (h2 : Name stmt) (fs : List Nat)
    (hf : ∀ f ∈ fs, f = 0 ∨ f = 1) (hfl : fs.length < 32768) (ps : List Bytes) (hp : ∀ p ∈ ps, p.length < 2147483648)
    (hpl : ps.length < 65536) (rs : List Nat) (hr : rs.length < 65536) :
    handle hash pw pg (.typed 66 (bindMsg portal stmt fs ps rs)) =
      .ok [] { pg with error := false, bind := true, portals := (portal, ⟨stmt, ps⟩) :: pg.portals } := by
  have : bindMsg portal stmt fs ps rs = portal ++ 0 :: (stmt ++ 0 :: (be16 fs.length ++ (fs.flatMap be16 ++
      (be16 ps.length ++ (ps.flatMap (fun p => be32 p.length ++ p) ++ (be16 rs.length ++ rs.flatMap be16)))))) := by simp [bindMsg]
  show parseB _ _ = _
  rw [this, parseB, cstr_exact _ _ h1.2]
  simp only []
  rw [cstr_exact _ _ h2.2]
  simp only []
  rw [int16_be16 (by omega)]
  simp only []
  rw [if_pos hfl, formats_exact fs hf]
  simp only []
  rw [int16_be16 hpl]
  simp only []
  rw [params_exact ps hp]
  simp only []
  rw [int16_be16 hr]
  simp only []
  rw [if_neg (by rw [length_be16]; simp), if_neg (by have := h1.1; omega), if_neg (by have := h2.1; omega)]

/-- Whatever was prepared under the name and bound to the portal, an Execute message of the portal runs the statement's words with
the parameters in place, and nothing else. -/
theorem execute_done (hash : Nat → Nat) (pw : Bytes) (pg : State) (portal stmt : Bytes) (h1 : Name portal) (h2 : Name stmt) {q : Query}
    (h : Valid q) (hfirst : ∀ x, q.head? = some x → x.1 = false) (ps : List Bytes) (hl : ps.length = (paramsOf q).length)
    (hp : EachOnce q) (hpo : pg.portals.lookup portal = some ⟨stmt, ps⟩)
    (hst : pg.statements.lookup stmt = some ⟨(paramsOf q).length, toks q⟩) (limit : Nat) :
    handle hash pw pg (.typed 69 (executeMsg portal limit)) = .ok (words ps q) { pg with error := false, execute := true } := by
  have : executeMsg portal limit = portal ++ 0 :: be32 limit := by simp [executeMsg]
  show parseE _ _ = _
  rw [this, parseE, cstr_exact _ _ h1.2]
  unfold be32
  simp only []
  have hl1 : lookupName pg.portals portal = some ⟨stmt, ps⟩ := by unfold lookupName; rw [if_neg (by have := h1.1; omega), hpo]
  have hl2 : lookupName pg.statements stmt = some ⟨(paramsOf q).length, toks q⟩ := by
    unfold lookupName; rw [if_neg (by have := h2.1; omega), hst]
  rw [hl1]
  simp only []
  rw [hl2]
  simp only []
  rw [if_neg (by rw [hl]; simp)]
  have hrange : ∀ n ∈ paramsOf q, 1 ≤ n ∧ n ≤ 65535 ∧ n ≤ ps.length := by
    intro n hn
    have h1 := h.params n hn
    refine ⟨h1.1, h1.2, ?_⟩
    -- the numbers 1 … k all occur among k numbers, so there are no others
    rw [hl]
    by_contra hgt
    have hsub : (List.range' 1 (paramsOf q).length) ⊆ (paramsOf q).erase n := by
      intro i hi
      rw [List.mem_range'_1] at hi
      have hmem := hp i hi.1 (by omega)
      exact (List.mem_erase_of_ne (by omega)).2 hmem
    have hle := (List.Nodup.subperm (List.nodup_range' (step := 1)) hsub).length_le
    rw [List.length_range', List.length_erase_of_mem hn] at hle
    have : 0 < (paramsOf q).length := List.length_pos_of_mem hn
    omega
  rw [fill_exact ps q hrange hfirst]

theorem ite_both {α : Type} {P : α → Prop} {c : Prop} [Decidable c] {a b : α} (ha : P a) (hb : P b) : P (if c then a else b) := by
  split <;> assumption

/-- The replies between the messages change neither statements nor portals. -/
theorem respond_same (pw : Bytes) (pg : State) : Same pg (respond pw pg).2.1 := by
  have base : ∀ (rs : List Reply) (pg' : State) (x y : Bool), Same pg pg' → (fun r : List Reply × State × Bool × Bool => Same pg r.2.1) (rs, pg', x, y) :=
    fun _ _ _ _ h => h
  unfold respond
  refine ite_both (P := fun r : List Reply × State × Bool × Bool => Same pg r.2.1) (base _ _ _ _ ⟨rfl, rfl⟩) ?_
  repeat' refine ite_both (P := fun r : List Reply × State × Bool × Bool => Same pg r.2.1) ?_ ?_
  all_goals exact base _ _ _ _ ⟨rfl, rfl⟩

/-- C41.  A client prepares a query under a name, binds values to its parameters, and executes it; the states at Bind and Execute may differ in
their flags (as the replies sent in between do).  The query is any sequence of words made of bare text, quoted text and parameters, in which
each of the parameters 1 … k occurs once; the values are any byte strings.  Then exactly the words of the query are executed, each parameter
replaced by exactly its value.  Full property: also for queries in which a parameter occurs more than once; `repeated_parameter_refused`
shows that these are refused. -/
theorem prepared_exact_partial (hash : Nat → Nat) (pw : Bytes) (pg0 : State) (name portal : Bytes) (hn : Name name) (hpo : Name portal) {q : Query}
    (h : Valid q) (hfirst : ∀ x, q.head? = some x → x.1 = false) (hp : EachOnce q)
    (types : List Nat) (ht : types.length < 65536)
    (fs : List Nat) (hf : ∀ f ∈ fs, f = 0 ∨ f = 1) (hfl : fs.length < 32768)
    (ps : List Bytes) (hps : ∀ p ∈ ps, p.length < 2147483648) (hl : ps.length = (paramsOf q).length) (hpl : ps.length < 65536)
    (rs : List Nat) (hr : rs.length < 65536) (limit : Nat) :
    ∃ pg1, handle hash pw pg0 (.typed 80 (parseMsg name (text q) types)) = .ok [] pg1 ∧
      ∀ pg1', Same pg1 pg1' → ∃ pg2, handle hash pw pg1' (.typed 66 (bindMsg portal name fs ps rs)) = .ok [] pg2 ∧
        ∀ pg2', Same pg2 pg2' → ∃ pg3, handle hash pw pg2' (.typed 69 (executeMsg portal limit)) = .ok (words ps q) pg3 := by
  refine ⟨_, parse_done hash pw pg0 name hn h hfirst hp types ht, ?_⟩
  intro pg1' hs1
  refine ⟨_, bind_done hash pw pg1' portal name hpo hn fs hf hfl ps hps hpl rs hr, ?_⟩
  intro pg2' hs2
  refine ⟨_, execute_done hash pw pg2' portal name hpo hn h hfirst ps hl hp ?_ ?_ limit⟩
  · rw [← hs2.2]; simp
  · rw [← hs2.1]
    show pg1'.statements.lookup name = _
    rw [← hs1.1]; simp

/-- `set k $1` with a value that looks like another command: the value stays one argument. -/
def setQuery : Query := [(false, .word [115, 101, 116]), (false, .word [107]), (false, .param 1)]

example : Valid setQuery ∧ EachOnce setQuery ∧ text setQuery = [115, 101, 116, 32, 107, 32, 36, 49] ∧
    words [[120, 39, 59, 32, 0, 36, 50]] setQuery = [[115, 101, 116], [107], [120, 39, 59, 32, 0, 36, 50]] := by
  refine ⟨?_, ?_, by decide +kernel, rfl⟩
  · simp [setQuery, Valid, Piece.Ok]
  · intro i h1 h2
    simp [setQuery, paramsOf] at *
    omega

/-- `mset a$2 'x y'$1`: pieces of one word, the parameters in any order. -/
example : Valid [(false, .word [97]), (true, .param 2), (false, .quoted [120, 32, 121]), (true, .param 1)] ∧
    EachOnce [(false, .word [97]), (true, .param 2), (false, .quoted [120, 32, 121]), (true, .param 1)] ∧
    words [[49], [50]] [(false, .word [97]), (true, .param 2), (false, .quoted [120, 32, 121]), (true, .param 1)] =
      [[97, 50], [120, 32, 121, 49]] := by
  refine ⟨?_, ?_, rfl⟩
  · simp [Valid, Piece.Ok, Piece.Then]
  · intro i h1 h2
    simp [paramsOf] at *
    omega

/-- C41, the failing part: a statement that uses a parameter twice (`mset $1 $1`) cannot be prepared, for any hash function. -/
theorem repeated_parameter_refused (hash : Nat → Nat) (pw : Bytes) (pg : State) :
    ∃ pg', handle hash pw pg (.typed 80 (parseMsg [] [109, 115, 101, 116, 32, 36, 49, 32, 36, 49] [])) = .ok [] pg' ∧ pg'.error = true ∧
      pg'.statements = pg.statements := by
  have hq : ([109, 115, 101, 116, 32, 36, 49, 32, 36, 49] : Bytes) = text [(false, .word [109, 115, 101, 116]), (false, .param 1), (false, .param 1)] := by
    decide +kernel
  have hv : Valid [(false, .word [109, 115, 101, 116]), (false, .param 1), (false, .param 1)] := by simp [Valid, Piece.Ok]
  obtain ⟨m', hm', he⟩ := tokens_query (hash := hash) _ hv ((text [(false, .word [109, 115, 101, 116]), (false, .param 1), (false, .param 1)]).length + 1)
    false [] Pmap.init [] (Pmap.init_is hash) (by omega)
  have hc : m'.count = 2 := by have := hm'.2.1; simpa [paramsOf] using this
  have hb : checkParams hash m' m'.count = some false := by
    obtain ⟨b, hb1, hb2⟩ := checkParams_iff hm' m'.count
    rw [hb1]
    cases b with
    | false => rfl
    | true =>
      have := hb2.1 rfl 2 (by omega) (by omega)
      simp [paramsOf] at this
  have hpq : parseQuery hash (text [(false, .word [109, 115, 101, 116]), (false, .param 1), (false, .param 1)]) = some none := by
    unfold parseQuery
    have hd : (text [(false, .word [109, 115, 101, 116]), (false, .param 1), (false, .param 1)]).dropWhile isSpace =
        text [(false, .word [109, 115, 101, 116]), (false, .param 1), (false, .param 1)] := by decide +kernel
    simp only []
    rw [hd]
    have hg : glued [(false, Piece.word [109, 115, 101, 116]), (false, .param 1), (false, .param 1)] = false := rfl
    rw [hg] at he
    rw [he]
    simp only [Option.bind_some]
    rw [hb]
    rfl
  refine ⟨{ pg with error := true }, ?_, rfl, rfl⟩
  have hh : ∀ m, handle hash pw pg (.typed 80 m) = parseP hash { pg with error := false } m := fun _ => rfl
  rw [hh]
  have hmsg : parseMsg [] [109, 115, 101, 116, 32, 36, 49, 32, 36, 49] [] =
      [] ++ 0 :: (([109, 115, 101, 116, 32, 36, 49, 32, 36, 49] : Bytes) ++ 0 :: [0, 0]) := by decide +kernel
  rw [hmsg, parseP, cstr_exact _ _ (by simp)]
  simp only []
  rw [cstr_exact _ _ (by decide)]
  simp only [int16]
  rw [if_neg (by decide), if_neg (by decide), hq, hpq]

/-! ### Any query -/

/-- A part of an argument: fixed text or a parameter. -/
abbrev Part := Bytes ⊕ Nat

/-- The value of an argument made of parts. -/
def instantiate (ps : List Bytes) (a : List Part) : Bytes :=
  a.flatMap fun
    | .inl t => t
    | .inr i => ps.getD i []

/-- The parts a token stands for, if it is valid for `k` parameters. -/
def Tok.part (k : Nat) (t : Tok) : Option Part :=
  if t.param then
    match t.text with
    | 36 :: n =>
      match parseU64 n with
      | none => none
      | some x => if x = 0 ∨ x > 65535 then none else if x - 1 < k then some (.inr (x - 1)) else none
    | _ => none
  else some (.inl t.text)

theorem fill_template (k : Nat) (ts : List Tok) (acc : List (List Part)) :
    (∀ ps : List Bytes, ps.length = k → fill ps ts (acc.map (instantiate ps)) = none) ∨
      ∃ as : List (List Part), ∀ ps : List Bytes, ps.length = k → fill ps ts (acc.map (instantiate ps)) = some (as.map (instantiate ps)) := by
  induction ts generalizing acc with
  | nil => exact Or.inr ⟨acc, fun ps _ => rfl⟩
  | cons t ts ih =>
    cases hpart : t.part k with
    | none =>
      left
      intro ps hps
      rw [fill]
      have : t.arg ps = none := by
        unfold Tok.part at hpart
        unfold Tok.arg
        split at hpart
        · rename_i hp
          rw [if_pos hp]
          split at hpart
          · rename_i n hn
            rw [hn]
            simp only []
            split at hpart
            · rename_i hx; rw [hx]
            · rename_i x hx
              rw [hx]
              simp only []
              split at hpart
              · rename_i h; rw [if_pos h]
              · rename_i h
                rw [if_neg h]
                split at hpart
                · simp at hpart
                · rename_i hk; exact List.getElem?_eq_none (by omega)
          · rename_i hne
            split
            · rename_i n hn; exact absurd hn (hne n)
            · rfl
        · simp at hpart
      rw [this]
    | some part =>
      have harg : ∀ ps : List Bytes, ps.length = k → t.arg ps = some (instantiate ps [part]) := by
        intro ps hps
        unfold Tok.arg
        unfold Tok.part at hpart
        split at hpart
        · rename_i hp
          rw [if_pos hp]
          split at hpart
          · rename_i n hn
            rw [hn]
            simp only []
            split at hpart
            · simp at hpart
            · rename_i x hx
              rw [hx]
              simp only []
              split at hpart
              · simp at hpart
              · rename_i h
                rw [if_neg h]
                split at hpart
                · rename_i hk
                  simp only [Option.some.injEq] at hpart
                  rw [← hpart, List.getElem?_eq_getElem (by omega)]
                  simp [instantiate, List.getD_eq_getElem?_getD, List.getElem?_eq_getElem (show x - 1 < ps.length by omega)]
                · simp at hpart
          · simp at hpart
        · rename_i hp
          simp only [Option.some.injEq] at hpart
          rw [if_neg hp, ← hpart]
          simp [instantiate]
      by_cases hj : t.join
      · cases hacc : acc.getLast? with
        | none =>
          left
          intro ps hps
          rw [fill, harg ps hps]
          simp only [hj, if_true]
          rw [List.getLast?_map, hacc]
          rfl
        | some l =>
          rcases ih (acc.dropLast ++ [l ++ [part]]) with h | ⟨as, h⟩
          · left
            intro ps hps
            rw [fill, harg ps hps]
            simp only [hj, if_true]
            rw [List.getLast?_map, hacc]
            have := h ps hps
            simpa [instantiate, List.map_dropLast] using this
          · right
            refine ⟨as, ?_⟩
            intro ps hps
            rw [fill, harg ps hps]
            simp only [hj, if_true]
            rw [List.getLast?_map, hacc]
            have := h ps hps
            simpa [instantiate, List.map_dropLast] using this
      · rcases ih (acc ++ [[part]]) with h | ⟨as, h⟩
        · left
          intro ps hps
          rw [fill, harg ps hps]
          simp only [hj]
          have := h ps hps
          simpa using this
        · right
          refine ⟨as, ?_⟩
          intro ps hps
          rw [fill, harg ps hps]
          simp only [hj]
          have := h ps hps
          simpa using this

/-- C41 for every query whatever, also malformed ones, in any state of the connection: the values cannot change the command.  For every
prepared statement there is one list of arguments made of fixed texts and parameters such that every Execute with any values runs exactly
that list with the values in place (or every Execute is refused). -/
theorem values_cannot_change_command (hash : Nat → Nat) (pw : Bytes) (stmt : Stmt) :
    (∀ (pg : State) (portal name : Bytes) (ps : List Bytes) (limit : Nat), Name portal → Name name → pg.portals.lookup portal = some ⟨name, ps⟩ →
      pg.statements.lookup name = some stmt →
      handle hash pw pg (.typed 69 (executeMsg portal limit)) = .ok [] { pg with error := true }) ∨
    ∃ as : List (List Part), ∀ (pg : State) (portal name : Bytes) (ps : List Bytes) (limit : Nat), Name portal → Name name →
      pg.portals.lookup portal = some ⟨name, ps⟩ → pg.statements.lookup name = some stmt →
      handle hash pw pg (.typed 69 (executeMsg portal limit)) =
        if ps.length = stmt.nparams then .ok (as.map (instantiate ps)) { pg with error := false, execute := true }
        else .ok [] { pg with error := true } := by
  have key : ∀ (pg : State) (portal name : Bytes) (ps : List Bytes) (limit : Nat), Name portal → Name name →
      pg.portals.lookup portal = some ⟨name, ps⟩ → pg.statements.lookup name = some stmt →
      handle hash pw pg (.typed 69 (executeMsg portal limit)) =
        if ps.length = stmt.nparams then
          match fill ps stmt.toks [] with
          | none => .ok [] { pg with error := true }
          | some args => .ok args { pg with error := false, execute := true }
        else .ok [] { pg with error := true } := by
    intro pg portal name ps limit h1 h2 h3 h4
    have : executeMsg portal limit = portal ++ 0 :: be32 limit := by simp [executeMsg]
    show parseE _ _ = _
    rw [this, parseE, cstr_exact _ _ h1.2]
    unfold be32
    simp only []
    have hl1 : lookupName pg.portals portal = some ⟨name, ps⟩ := by unfold lookupName; rw [if_neg (by have := h1.1; omega), h3]
    have hl2 : lookupName pg.statements name = some stmt := by unfold lookupName; rw [if_neg (by have := h2.1; omega), h4]
    rw [hl1]
    simp only []
    rw [hl2]
    simp only []
    by_cases hlen : ps.length = stmt.nparams
    · rw [if_neg (by rw [hlen]; simp), if_pos hlen]
      cases fill ps stmt.toks [] <;> rfl
    · rw [if_pos (fun h => hlen h.symm), if_neg hlen]
  rcases fill_template stmt.nparams stmt.toks [] with h | ⟨as, h⟩
  · left
    intro pg portal name ps limit h1 h2 h3 h4
    rw [key pg portal name ps limit h1 h2 h3 h4]
    split
    · rename_i hl
      have := h ps hl
      simp only [List.map_nil] at this
      rw [this]
    · rfl
  · right
    refine ⟨as, ?_⟩
    intro pg portal name ps limit h1 h2 h3 h4
    rw [key pg portal name ps limit h1 h2 h3 h4]
    split
    · rename_i hl
      have := h ps hl
      simp only [List.map_nil] at this
      rw [this]
    · rfl

/-- A statement in the state and a portal bound to it. -/
example : let pg : State := { State.new with statements := [([115], ⟨1, toks setQuery⟩)], portals := [([112], ⟨[115], [[39, 32]]⟩)] }
    Name [112] ∧ Name [115] ∧ pg.portals.lookup [112] = some ⟨[115], [[39, 32]]⟩ ∧ pg.statements.lookup [115] = some ⟨1, toks setQuery⟩ := by
  refine ⟨⟨by decide, by decide⟩, ⟨by decide, by decide⟩, rfl, rfl⟩

/-! ### Quoted strings -/

/-- The contents of a Query message. -/
def queryMsg (query : Bytes) : Bytes := query ++ [0]

/-- A text as SQL string: in single quotes, its quotes doubled. -/
def sqlQuote (t : Bytes) : Bytes := [39] ++ t.flatMap (fun b => if b = 39 then [39, 39] else [b]) ++ [39]

theorem paramsOf_none {q : Query} (h : ∀ x ∈ q, ∀ n, x.2 ≠ .param n) : paramsOf q = [] := by
  induction q with
  | nil => rfl
  | cons x q ih =>
    obtain ⟨g, p⟩ := x
    cases p with
    | word w => exact ih fun y hy => h y (by simp [hy])
    | quoted t => exact ih fun y hy => h y (by simp [hy])
    | param n => exact absurd rfl (h (g, .param n) (by simp) n)

/-- What a piece without parameters delivers. -/
def Piece.plain : Piece → Bytes
  | .word w => w
  | .quoted t => t
  | .param _ => []

/-- C42 for texts without quotes.  A Query message of bare words and quoted texts, separated by blanks, delivers exactly these as arguments.
Full property: also for texts with quotes; `quote_loses_text` shows that it fails for every one of them. -/
theorem query_exact_partial (hash : Nat → Nat) (pw : Bytes) (pg : State) {q : Query} (h : Valid q) (hne : q ≠ [])
    (hg : ∀ x ∈ q, x.1 = false) (hn : ∀ x ∈ q, ∀ n, x.2 ≠ .param n) :
    handle hash pw pg (.typed 81 (queryMsg (text q))) = .ok (q.map fun x => x.2.plain) { pg with error := false } := by
  have hpar := paramsOf_none hn
  have hq := parseQuery_exact hash h (by intro x hx; exact hg x (List.mem_of_mem_head? hx)) (by intro i h1 h2; rw [hpar] at h2; simp at h2; omega)
  show parseQ hash _ _ = _
  rw [queryMsg, parseQ, cstr_exact _ _ h.no_nul.2]
  simp only []
  rw [hq]
  simp only []
  rw [hpar, if_neg (by simp), if_neg (by cases q with | nil => exact absurd rfl hne | cons x q => simp [toks])]
  congr 1
  simp only [toks, List.map_map]
  apply List.map_congr_left
  intro x hx
  obtain ⟨g, p⟩ := x
  cases p with
  | word w => rfl
  | quoted t => rfl
  | param n => exact absurd rfl (hn _ hx n)

/-- `set k 'a b;'` -/
example : let q : Query := [(false, .word [115, 101, 116]), (false, .word [107]), (false, .quoted [97, 32, 98, 59])]
    Valid q ∧ q ≠ [] ∧ (∀ x ∈ q, x.1 = false) ∧ (∀ x ∈ q, ∀ n, x.2 ≠ .param n) ∧
      text q = [115, 101, 116, 32, 107, 32] ++ sqlQuote [97, 32, 98, 59] := by
  refine ⟨by simp [Valid, Piece.Ok], by simp, by simp, by simp, by decide +kernel⟩

theorem simpleStr_quoted (t : Bytes) :
    simpleStr (t.flatMap (fun b => if b = 39 then [39, 39] else [b]) ++ [39]) =
      some (t.flatMap (fun b => if b = 39 then [39, 39] else [b]), decide (39 ∈ t), []) := by
  induction t with
  | nil => rfl
  | cons b t ih =>
    rw [List.flatMap_cons]
    by_cases hb : b = 39
    · subst hb
      simp only [if_true, List.cons_append, List.nil_append]
      rw [simpleStr, ih]
      simp
    · simp only [if_neg hb, List.cons_append, List.nil_append]
      rw [simpleStr, ih]
      · simp [Ne.symm hb]
      all_goals (intros; first | exact hb | simp_all)

/-- C42 is false of the code, for *every* text with a quote: whatever the text, `set k '…'` stores the empty value. -/
theorem quote_loses_text (hash : Nat → Nat) (pw : Bytes) (pg : State) (t : Bytes) (h0 : 0 ∉ t) (hq : 39 ∈ t) :
    handle hash pw pg (.typed 81 (queryMsg ([115, 101, 116, 32, 107, 32] ++ sqlQuote t))) =
      .ok [[115, 101, 116], [107], []] { pg with error := false } := by
  have hz : 0 ∉ ([115, 101, 116, 32, 107, 32] ++ sqlQuote t : Bytes) := by
    simp only [sqlQuote, List.mem_append, List.mem_flatMap, not_or]
    refine ⟨by decide, ⟨by decide, ?_⟩, by decide⟩
    rintro ⟨b, hb, hc⟩
    split at hc
    · simp at hc
    · simp at hc; rw [← hc] at hb; exact h0 hb
  have hsq : sqlQuote t = 39 :: (t.flatMap (fun b => if b = 39 then [39, 39] else [b]) ++ [39]) := rfl
  have hparse : parseQuery hash ([115, 101, 116, 32, 107, 32] ++ sqlQuote t) =
      some (some ([⟨[115, 101, 116], false, false⟩, ⟨[107], false, false⟩, ⟨[], false, false⟩], 0)) := by
    unfold parseQuery
    have hd : (([115, 101, 116, 32, 107, 32] : Bytes) ++ sqlQuote t).dropWhile isSpace = [115, 101, 116, 32, 107, 32] ++ sqlQuote t := by
      rw [List.cons_append, List.dropWhile_cons_of_neg (by decide)]
    simp only []
    rw [hd]
    obtain ⟨f, hf⟩ : ∃ f, ([115, 101, 116, 32, 107, 32] ++ sqlQuote t).length + 1 = f + 4 := ⟨5 + (t.flatMap (fun b => if b = 39 then [39, 39] else [b])).length, by
      simp [sqlQuote]; omega⟩
    rw [hf, hsq]
    have step1 : ∀ (s : Bytes) (acc : List Tok) (m : Pmap), tokens hash (f + 4) (115 :: 101 :: 116 :: 32 :: 107 :: s) false false acc m =
        tokens hash (f + 3) (107 :: s) false false (acc ++ [⟨[115, 101, 116], false, false⟩]) m := by
      intro s acc m
      rfl
    have step2 : ∀ (s : Bytes) (acc : List Tok) (m : Pmap), tokens hash (f + 3) (107 :: 32 :: 39 :: s) false false acc m =
        tokens hash (f + 2) (39 :: s) false false (acc ++ [⟨[107], false, false⟩]) m := by
      intro s acc m
      rfl
    simp only [List.cons_append, List.nil_append]
    rw [step1, step2, tokens]
    simp only []
    rw [if_neg (by decide), if_neg (by decide), if_pos trivial, simpleStr_quoted]
    simp only [hq, decide_true, if_true]
    have hun : ∀ r, unescapeSimple r = [] := by
      intro r
      unfold unescapeSimple
      rw [simpleLoop]
      simp
    rw [hun, tokens]
    rfl
  show parseQ hash _ _ = _
  rw [queryMsg, parseQ, cstr_exact _ _ hz]
  simp only []
  rw [hparse]
  rfl

/-- `it's` -/
example : (0 : UInt8) ∉ ([105, 116, 39, 115] : Bytes) ∧ 39 ∈ ([105, 116, 39, 115] : Bytes) ∧
    sqlQuote [105, 116, 39, 115] = [39, 105, 116, 39, 39, 115, 39] := by decide +kernel

end Verif.Pg
