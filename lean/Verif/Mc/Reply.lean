import Mathlib.Tactic.Common
import Verif.Cmd.McGet
import Verif.Http.Response

/-!
C77: every memcache request gets exactly one reply.
-/

namespace Verif.Mc

open Verif.Num Verif.Resp Verif.Cmd Verif.Cache Verif.Http Function

/-! ### Model -/

/-- "CLIENT_ERROR " -/
def clientError : Bytes := [67, 76, 73, 69, 78, 84, 95, 69, 82, 82, 79, 82, 32]
/-- "SERVER_ERROR " -/
def serverError : Bytes := [83, 69, 82, 86, 69, 82, 95, 69, 82, 82, 79, 82, 32]

/-- `write_error` on a memcache connection, `/repo/src/conn.c:248-280`; `server` as in `conn_write_error` (316-322). -/
def writeErr (err : Bytes) (server : Bool) : Bytes :=
  if errPrefix.isPrefixOf err then (if server then serverError else clientError) ++ err.drop 4 ++ [13, 10]
  else if server then serverError ++ err ++ [13, 10]
  else if clientError.isPrefixOf err then err ++ [13, 10]
  else [69, 82, 82, 79, 82, 13, 10]

/-- The bytes written by one call on a memcache connection. -/
def respond : W → Bytes
  | .err m => writeErr m.text (m = .outOfMemory)
  | w => render [] w

/-- The texts of the errors of the parser, `/repo/src/conn.h:26-27`, `/repo/src/memcache.c`. -/
def Err.text : Err → Bytes
  | .error => [69, 82, 82, 79, 82]
  | .format => clientError ++ [98, 97, 100, 32, 99, 111, 109, 109, 97, 110, 100, 32, 108, 105, 110, 101, 32, 102, 111, 114, 109, 97, 116]
  | .chunk => clientError ++ [98, 97, 100, 32, 100, 97, 116, 97, 32, 99, 104, 117, 110, 107]

/-- `ERROR`, `CLIENT_ERROR bad command line format`, `CLIENT_ERROR bad data chunk`. -/
example : [Err.error, .format, .chunk].map Err.text = ["ERROR".toUTF8.toList, "CLIENT_ERROR bad command line format".toUTF8.toList,
    "CLIENT_ERROR bad data chunk".toUTF8.toList] := by decide +kernel

/-- What is written for one request, `/repo/src/conn.c:113-168`; `noreply` is not looked at. -/
def answer (e : Env) (pw : Bytes) (other : Fn → Env → List Bytes → Prog (List W)) (st : ConnSt) : Req → Prog Bytes
  | .bad x => .ret (writeErr x.text false)
  | .cmd args _ => (evcommand e pw other args st).map fun r => (r.1.map respond).flatten

/-! ### Specification: how a client reads a reply -/

/-- "STORED" and so on. -/
def simpleReplies : List Bytes :=
  [[83, 84, 79, 82, 69, 68], [78, 79, 84, 95, 83, 84, 79, 82, 69, 68], [69, 88, 73, 83, 84, 83], [78, 79, 84, 95, 70, 79, 85, 78, 68],
   [68, 69, 76, 69, 84, 69, 68], [84, 79, 85, 67, 72, 69, 68], [79, 75], [69, 78, 68], [69, 82, 82, 79, 82]]

/-- The last line of a reply as the protocol has it. -/
def Final (l : Bytes) : Prop :=
  l ∈ simpleReplies ∨ (∃ n, natOf l = some n) ∨
    ∃ t : Bytes, (∀ b ∈ t, 32 ≤ b) ∧ (l = clientError ++ t ∨ l = serverError ++ t ∨ l = [86, 69, 82, 83, 73, 79, 78, 32] ++ t)

/-- A client reads a line.  `VALUE key flags n` is followed by `n` bytes and CR LF and more lines, `STAT` by more lines; any other line is the last. -/
def read : Nat → Bytes → Option (List (Bytes × Bytes) × Bytes × Bytes)
  | 0, _ => none
  | f + 1, s =>
    (Resp.line s).bind fun x =>
      match wordsOf x.1 with
      | [86, 65, 76, 85, 69] :: _ :: _ :: n :: _ =>
        (natOf n).bind fun n =>
          if x.2.length < n + 2 ∨ (x.2.drop n).take 2 ≠ [13, 10] then none
          else (read f (x.2.drop (n + 2))).map fun y => ((x.1, x.2.take n) :: y.1, y.2)
      | [83, 84, 65, 84] :: _ => (read f x.2).map fun y => ((x.1, []) :: y.1, y.2)
      | _ => some ([], x.1, x.2)

/-- The bytes are one reply, whatever follows. -/
def One (bytes : Bytes) : Prop :=
  ∃ parts l fuel, Final l ∧ (parts ≠ [] → l = [69, 78, 68]) ∧ ∀ rest f, fuel ≤ f → read f (bytes ++ rest) = some (parts, l, rest)

/-! ### Reading -/

/-- Neither VALUE nor STAT. -/
def Plain (l : Bytes) : Prop := (∀ b ∈ l, b ≠ 13) ∧ (wordsOf l).head? ≠ some [86, 65, 76, 85, 69] ∧ (wordsOf l).head? ≠ some [83, 84, 65, 84]

theorem read_plain {l : Bytes} (h : Plain l) (rest : Bytes) (f : Nat) : read (f + 1) (l ++ [13, 10] ++ rest) = some ([], l, rest) := by
  rw [List.append_assoc, show [13, 10] ++ rest = 13 :: 10 :: rest from rfl, read, line_clean h.1]
  simp only [Option.bind_some]
  split
  · rename_i hw
    exact absurd (by rw [hw]; rfl) h.2.1
  · rename_i hw
    exact absurd (by rw [hw]; rfl) h.2.2
  · rfl

theorem One.plain {l : Bytes} (h : Plain l) (hf : Final l) : One (l ++ [13, 10]) :=
  ⟨[], l, 1, hf, by simp, fun rest f hfu => by
    obtain ⟨g, rfl⟩ : ∃ g, f = g + 1 := ⟨f - 1, by omega⟩
    exact read_plain h rest g⟩

theorem one_simple {l : Bytes} (h : l ∈ simpleReplies) : One (l ++ [13, 10]) := by
  refine .plain ?_ (Or.inl h)
  revert h
  unfold simpleReplies Plain
  simp only [List.mem_cons, List.not_mem_nil, or_false]
  rintro (rfl | rfl | rfl | rfl | rfl | rfl | rfl | rfl | rfl) <;> decide

theorem one_text {p t : Bytes} (hp : p = clientError ∨ p = serverError ∨ p = [86, 69, 82, 83, 73, 79, 78, 32]) (ht : ∀ b ∈ t, 32 ≤ b) : One (p ++ t ++ [13, 10]) := by
  have h13 : ∀ b ∈ t, b ≠ 13 := by
    rintro b hb rfl
    exact absurd (ht 13 hb) (by decide)
  have hw : ∀ q : Bytes, (32 : UInt8) ∉ q → p = q ++ [32] → wordsOf (p ++ t) = q :: wordsOf t := by
    rintro q hq rfl
    rw [List.append_assoc]
    exact wordsOf_word hq t
  refine .plain ⟨?_, ?_⟩ (Or.inr (Or.inr ⟨t, ht, ?_⟩))
  · intro b hb
    rcases List.mem_append.1 hb with hb | hb
    · have hall : ∀ q ∈ [clientError, serverError, [86, 69, 82, 83, 73, 79, 78, 32]], ∀ b ∈ q, b ≠ 13 := by decide
      exact hall p (by rcases hp with rfl | rfl | rfl <;> simp) b hb
    · exact h13 b hb
  · rcases hp with rfl | rfl | rfl
    · rw [hw [67, 76, 73, 69, 78, 84, 95, 69, 82, 82, 79, 82] (by decide) rfl]; simp
    · rw [hw [83, 69, 82, 86, 69, 82, 95, 69, 82, 82, 79, 82] (by decide) rfl]; simp
    · rw [hw [86, 69, 82, 83, 73, 79, 78] (by decide) rfl]; simp
  · rcases hp with rfl | rfl | rfl <;> simp

theorem one_number (n : Nat) : One (u64toa n ++ [13, 10]) := by
  have hd := digit_bytes n
  have hw : wordsOf (u64toa n) = [u64toa n] := wordsOf_last fun h => (hd _ h).1 rfl
  have hne : ∀ t : Bytes, (∃ b ∈ t, isDigit b = false) → u64toa n ≠ t := by
    rintro t ⟨b, hb, hb'⟩ h
    have := u64toa_digits n b (h ▸ hb)
    rw [hb'] at this
    cases this
  refine .plain ⟨fun b hb => (hd b hb).2, ?_, ?_⟩ (Or.inr (Or.inl ⟨n, natOf_u64toa n⟩))
  · rw [hw, List.head?_cons, ne_eq, Option.some.injEq]
    exact hne _ ⟨86, by simp, by decide⟩
  · rw [hw, List.head?_cons, ne_eq, Option.some.injEq]
    exact hne _ ⟨83, by simp, by decide⟩

theorem one_err {t : Bytes} {server : Bool} (ht : ∀ b ∈ t, 32 ≤ b) : One (writeErr t server) := by
  unfold writeErr
  by_cases h1 : errPrefix.isPrefixOf t = true
  · rw [if_pos h1]
    exact one_text (by cases server <;> simp) fun b hb => ht b (List.mem_of_mem_drop hb)
  · rw [if_neg h1]
    by_cases h2 : server = true
    · rw [if_pos h2]
      exact one_text (by simp) ht
    · rw [if_neg h2]
      by_cases h3 : clientError.isPrefixOf t = true
      · rw [if_pos h3]
        obtain ⟨u, rfl⟩ := List.isPrefixOf_iff_prefix.1 h3
        exact one_text (Or.inl rfl) fun b hb => ht b (by simp [hb])
      · rw [if_neg h3]
        exact one_simple (l := [69, 82, 82, 79, 82]) (by simp [simpleReplies])

/-- A block before the rest of a list. -/
theorem read_block {gets : Bool} {k : Bytes} (hk : Key k) (it : Spec.Item) (s : Bytes) (f : Nat) :
    read (f + 1) (block gets k it ++ s) = (read f s).map fun y => ((head gets k it, it.value) :: y.1, y.2) := by
  have hk32 : 32 ∉ k := fun hc => by have := hk.2.2 32 hc; simp at this
  have hk13 : ∀ b ∈ k, b ≠ 13 := by rintro b hb rfl; have := hk.2.2 13 hb; simp at this
  have hf := digit_bytes it.flags
  have hl := digit_bytes it.value.length
  have hc := digit_bytes it.cas
  have hb : block gets k it ++ s = head gets k it ++ 13 :: 10 :: (it.value ++ 13 :: 10 :: s) := by
    cases gets <;> simp [block, head]
  have h13 : ∀ b ∈ head gets k it, b ≠ 13 := by
    intro b hb
    unfold head at hb
    simp only [List.mem_append, List.mem_cons, List.not_mem_nil, or_false] at hb
    rcases hb with (rfl | rfl | rfl | rfl | rfl) | rfl | hb | rfl | hb | rfl | hb | hb
    any_goals decide
    · exact hk13 b hb
    · exact (hf b hb).2
    · exact (hl b hb).2
    · cases gets
      · simp at hb
      · simp only [if_true, List.mem_cons] at hb
        rcases hb with rfl | hb
        · decide
        · exact (hc b hb).2
  have hw : ∃ ws, wordsOf (head gets k it) = [86, 65, 76, 85, 69] :: k :: u64toa it.flags :: u64toa it.value.length :: ws := by
    unfold head
    rw [wordsOf_word (by decide), wordsOf_word hk32, wordsOf_word (fun h => (hf _ h).1 rfl)]
    cases gets
    · simp only [Bool.false_eq_true, if_false, List.append_nil]
      rw [wordsOf_last (fun h => (hl _ h).1 rfl)]
      exact ⟨_, rfl⟩
    · simp only [if_true]
      rw [wordsOf_word (fun h => (hl _ h).1 rfl), wordsOf_last (fun h => (hc _ h).1 rfl)]
      exact ⟨_, rfl⟩
  obtain ⟨ws, hw⟩ := hw
  rw [hb, read, line_clean h13]
  simp only [Option.bind_some, hw, natOf_u64toa]
  rw [if_neg]
  · have : (it.value ++ 13 :: 10 :: s).drop (it.value.length + 2) = s := by
      rw [← List.drop_drop, List.drop_left]; rfl
    rw [this, List.take_left]
  · rw [List.drop_left]
    simp

/-- Something before the rest of a list. -/
def Piece (bytes : Bytes) : Prop := ∃ l d, ∀ s f, read (f + 1) (bytes ++ s) = (read f s).map fun y => ((l, d) :: y.1, y.2)

theorem piece_stat {l : Bytes} (h : ∀ b ∈ l, b ≠ 13) : Piece ([83, 84, 65, 84, 32] ++ l ++ [13, 10]) := by
  refine ⟨[83, 84, 65, 84, 32] ++ l, [], fun s f => ?_⟩
  have hw : wordsOf ([83, 84, 65, 84, 32] ++ l) = [83, 84, 65, 84] :: wordsOf l := wordsOf_word (w := [83, 84, 65, 84]) (by decide) l
  rw [List.append_assoc, show [13, 10] ++ s = 13 :: 10 :: s from rfl, read, line_clean (by
    intro b hb
    rcases List.mem_append.1 hb with hb | hb
    · exact (show ∀ b ∈ ([83, 84, 65, 84, 32] : Bytes), b ≠ 13 by decide) b hb
    · exact h b hb)]
  simp only [Option.bind_some, hw]

theorem one_list {ps : List Bytes} (h : ∀ p ∈ ps, Piece p) : One (ps.flatten ++ ([69, 78, 68] ++ [13, 10])) := by
  have key : ∃ parts, ∀ rest f, ps.length + 1 ≤ f → read f (ps.flatten ++ ([69, 78, 68] ++ [13, 10]) ++ rest) = some (parts, [69, 78, 68], rest) := by
    induction ps with
    | nil =>
      refine ⟨[], fun rest f hf => ?_⟩
      obtain ⟨g, rfl⟩ : ∃ g, f = g + 1 := ⟨f - 1, by omega⟩
      exact read_plain (by unfold Plain; decide) rest g
    | cons p ps ih =>
      obtain ⟨parts, ih⟩ := ih fun q hq => h q (by simp [hq])
      obtain ⟨l, d, hp⟩ := h p (by simp)
      refine ⟨(l, d) :: parts, fun rest f hf => ?_⟩
      obtain ⟨g, rfl⟩ : ∃ g, f = g + 1 := ⟨f - 1, by omega⟩
      rw [List.flatten_cons, List.append_assoc, List.append_assoc, hp, ← List.append_assoc, ih rest g (by simpa using hf)]
      rfl
  obtain ⟨parts, key⟩ := key
  exact ⟨parts, [69, 78, 68], _, Or.inl (by simp [simpleReplies]), fun _ => rfl, key⟩


/-! ### What the parser hands over -/

/-- The commands made by `parse_memcache`. -/
inductive Shape : List Bytes → Prop
  | get (gets : Bool) (k : Bytes) (ks : List Bytes) (h : ∀ k' ∈ k :: ks, Key k') : Shape ((if gets then mgetsName else mgetName) :: k :: ks)
  | set (key v : Bytes) (ws : List Bytes) (h : ∀ e, KeepsGet e ws) : Shape (setName :: key :: v :: ws)
  | append (prepend : Bool) (key v : Bytes) : Shape [if prepend then [112, 114, 101, 112, 101, 110, 100] else [97, 112, 112, 101, 110, 100], key, v]
  | del (key : Bytes) : Shape [delName, key]
  | incr (decr : Bool) (key x : Bytes) : Shape [if decr then [117, 100, 101, 99, 114, 98, 121] else [117, 105, 110, 99, 114, 98, 121], key, x]
  | touch (key x : Bytes) : Shape [expireName, key, x]
  | flush (as : List Bytes) : Shape ([102, 108, 117, 115, 104, 97, 108, 108] :: as)
  | stats (as : List Bytes) : Shape ([115, 116, 97, 116, 115] :: as)
  | version : Shape [[118, 101, 114, 115, 105, 111, 110]]
  | quit : Shape [[113, 117, 105, 116]]
  | unknown (name : Bytes) (as : List Bytes) (h : name ∈ [[103, 97, 116], [103, 97, 116, 115], [118, 101, 114, 98, 111, 115, 105]]) : Shape (name :: as)

theorem bind_got {α β : Type} {x : PR α} {f : α → PR β} {b : β} (h : x.bind f = .got b) : ∃ a, x = .got a ∧ f a = .got b := by
  cases x <;> first | exact ⟨_, rfl, h⟩ | cases h

theorem key_of_valid {k : Bytes} (h : validKey k = true) : Key k := by
  unfold validKey at h
  simp only [Bool.and_eq_true, Bool.not_eq_true', Bool.or_eq_false_iff, decide_eq_false_iff_not, List.all_eq_true] at h
  obtain ⟨⟨h1, h2⟩, h3⟩ := h
  refine ⟨by omega, by omega, fun b hb => ?_⟩
  obtain ⟨h4, h5⟩ := h3 b hb
  rw [UInt8.le_iff_toNat_le] at h4
  have h32 : (32 : UInt8).toNat = 32 := rfl
  exact ⟨by omega, fun hc => h5 (UInt8.toNat_inj.1 hc)⟩

/-- The request is an error or of one of the shapes. -/
def Shaped : PR (Req × Nat) → Prop
  | .got (.cmd args _, _) => Shape args
  | _ => True

theorem shaped_bind {α : Type} {x : PR α} {f : α → PR (Req × Nat)} (h : ∀ a, Shaped (f a)) : Shaped (x.bind f) := by
  cases x <;> first | exact h _ | trivial

theorem shaped_value {data : Bytes} {n x : Nat} {k : Bytes → Req} (h : ∀ v, Shaped (.got (k v, n + x + 2))) : Shaped (withValue data n x k) := by
  unfold withValue
  split
  · trivial
  split
  · trivial
  · exact h _

theorem shaped_ite {c : Prop} [Decidable c] {a b : PR (Req × Nat)} (ha : c → Shaped a) (hb : ¬ c → Shaped b) : Shaped (if c then a else b) := by
  by_cases h : c
  · rw [if_pos h]; exact ha h
  · rw [if_neg h]; exact hb h

theorem storeArgs_shape (cmd : Cmd) (key v flags exp cas : Bytes) : Shape (storeArgs cmd key v flags exp cas) := by
  have key' : Shape ([[115, 101, 116], key, v] ++ (if flags ≠ [48] then [[102, 108, 97, 103, 115], flags] else []) ++
      (if exp ≠ [48] then [[101, 120], exp] else []) ++ (if cmd = .add then [[110, 120]] else if cmd = .replace then [[120, 120]] else []) ++
      (if cmd = .cas then [[99, 97, 115], cas] else [])) := by
    rw [List.append_assoc, List.append_assoc, List.append_assoc]
    refine .set key v ((if flags ≠ [48] then [[102, 108, 97, 103, 115], flags] else []) ++
      ((if exp ≠ [48] then [[101, 120], exp] else []) ++ ((if cmd = .add then [[110, 120]] else if cmd = .replace then [[120, 120]] else []) ++
      (if cmd = .cas then [[99, 97, 115], cas] else [])))) fun e => .app ?_ (.app ?_ (.app ?_ ?_))
    · split <;> first | exact .nil | exact keeps_flags
    · split <;> first | exact .nil | exact keeps_ex
    · split
      · exact keeps_nx
      · split <;> first | exact .nil | exact keeps_xx
    · split <;> first | exact .nil | exact keeps_cas
  unfold storeArgs
  split
  · exact .append false key v
  · exact .append true key v
  · exact key'

theorem storePlus_shaped (data : Bytes) (n : Nat) (cmd : Cmd) (args : List Bytes) (nr : Bool) : Shaped (storePlus data n cmd args nr) := by
  unfold storePlus
  refine shaped_bind fun key => shaped_ite (fun _ => trivial) fun _ => shaped_bind fun flags => shaped_ite (fun _ => trivial) fun _ =>
    shaped_bind fun exp => shaped_ite (fun _ => trivial) fun _ => shaped_bind fun len => ?_
  split
  · trivial
  · refine shaped_ite (fun _ => trivial) fun _ => shaped_ite (fun _ => shaped_bind fun cas => shaped_ite (fun _ => trivial) fun _ => ?_) fun _ => ?_
    all_goals exact shaped_value fun v => storeArgs_shape _ _ _ _ _ _

theorem setFive_shaped (data : Bytes) (n : Nat) (key exp len : Bytes) : Shaped (setFive data n key exp len) := by
  unfold setFive
  refine shaped_ite (fun _ => trivial) fun _ => shaped_ite (fun _ => trivial) fun _ => ?_
  split
  · trivial
  · refine shaped_ite (fun _ => trivial) fun _ => shaped_value fun v => ?_
    exact .set key v _ fun e => by split <;> first | exact .nil | exact keeps_ex

theorem keys_shape {args : List Bytes} (gets : Bool) (hne : args ≠ []) (h1 : args.length ≠ 1) (h : ¬ (!(args.tail.all validKey)) = true) :
    Shape ((if gets then mgetsName else mgetName) :: args.tail) := by
  rcases args with _ | ⟨w, _ | ⟨k, ks⟩⟩
  · exact absurd rfl hne
  · exact absurd rfl h1
  · simp only [Bool.not_eq_true', Bool.not_eq_false, List.tail_cons, List.all_eq_true] at h
    exact .get gets k ks fun k' hk' => key_of_valid (h k' hk')

theorem other_shaped (n : Nat) (cmd : Cmd) {args : List Bytes} (hne : args ≠ []) (nr : Bool) : Shaped (other n cmd args nr) := by
  unfold other
  cases cmd <;> simp only []
  case get => exact shaped_ite (fun _ => trivial) fun h1 => shaped_ite (fun _ => trivial) fun h => keys_shape false hne h1 h
  case gets => exact shaped_ite (fun _ => trivial) fun h1 => shaped_ite (fun _ => trivial) fun h => keys_shape true hne h1 h
  case delete => exact shaped_ite (fun _ => trivial) fun _ => shaped_ite (fun _ => trivial) fun _ => shaped_bind fun key => shaped_ite (fun _ => trivial) fun _ => .del key
  case gat => exact shaped_ite (fun _ => trivial) fun _ => shaped_bind fun x => shaped_ite (fun _ => trivial) fun _ => shaped_ite (fun _ => trivial) fun _ => .unknown _ _ (by simp)
  case gats => exact shaped_ite (fun _ => trivial) fun _ => shaped_bind fun x => shaped_ite (fun _ => trivial) fun _ => shaped_ite (fun _ => trivial) fun _ => .unknown _ _ (by simp)
  case stats => exact .stats _
  case incr => exact shaped_ite (fun _ => trivial) fun _ => shaped_bind fun key => shaped_bind fun x => shaped_ite (fun _ => trivial) fun _ => .incr false key x
  case decr => exact shaped_ite (fun _ => trivial) fun _ => shaped_bind fun key => shaped_bind fun x => shaped_ite (fun _ => trivial) fun _ => .incr true key x
  case touch => exact shaped_ite (fun _ => trivial) fun _ => shaped_bind fun key => shaped_bind fun x => shaped_ite (fun _ => trivial) fun _ => .touch key x
  case flushAll => exact shaped_ite (fun _ => trivial) fun _ => shaped_ite (fun _ => shaped_bind fun x => .flush _) fun _ => .flush _
  case quit => exact .quit
  case version => exact .version
  case verbosity => exact shaped_ite (fun _ => trivial) fun _ => shaped_bind fun x => .unknown _ _ (by simp)
  all_goals trivial

theorem parse_shaped (data : Bytes) : Shaped (parseMc data) := by
  unfold parseMc
  refine shaped_bind fun ⟨args, n⟩ => ?_
  simp only []
  cases args with
  | nil => trivial
  | cons w rest =>
    simp only []
    refine shaped_ite (fun _ => shaped_bind fun key => ?_) fun _ => shaped_ite (fun _ => ?_) fun _ => ?_
    · refine shaped_ite (fun _ => trivial) fun h => ?_
      exact .get false key [] fun k' hk' => by
        simp only [List.mem_singleton] at hk'
        subst hk'
        exact key_of_valid (by simpa using h)
    · exact shaped_bind fun _ => shaped_bind fun _ => shaped_bind fun _ => shaped_bind fun _ =>
        shaped_ite (fun _ => setFive_shaped _ _ _ _ _) fun _ => storePlus_shaped _ _ _ _ _
    · cases hl : lookup w with
      | none => trivial
      | some cmd =>
        simp only []
        refine shaped_ite (fun _ => storePlus_shaped _ _ _ _ _) fun _ => ?_
        by_cases hd : (cmd.noreplyable && decide ((w :: rest).getLast? = some [110, 111, 114, 101, 112, 108, 121])) = true
        · rw [if_pos hd]
          refine other_shaped _ _ ?_ _
          cases rest with
          | nil =>
            simp only [List.getLast?_singleton, Bool.and_eq_true, decide_eq_true_eq, Option.some.injEq] at hd
            rw [hd.2, show lookup [110, 111, 114, 101, 112, 108, 121] = none by decide] at hl
            cases hl
          | cons a as => simp
        · rw [if_neg hd]
          exact other_shaped _ _ (by simp) _

/-! ### What the commands write -/

variable {env : Spec.Env} {I : Spec.State → Spec.State → Prop} {oom : Bool} {e : Env} {pw : Bytes} {y : Sys} {st : ConnSt}

/-- The bytes written by the calls. -/
def written (out : List W) : Bytes := (out.map respond).flatten

/-- One reply. -/
def McOne (out : List W) : Prop := One (written out)

/-- "NOT_FOUND", CR LF and a NUL. -/
def notFoundNul : Bytes := [78, 79, 84, 95, 70, 79, 85, 78, 68, 13, 10, 0]

theorem mc_simple {l : Bytes} (h : l ∈ simpleReplies) : McOne [.raw (l ++ [13, 10])] := by
  unfold McOne written
  simpa [respond, render] using one_simple h

theorem mc_err {m : ErrMsg} (h : m.quotes = none) : McOne [.err m] := by
  unfold McOne written
  simpa [respond] using one_err (server := decide (m = .outOfMemory)) (text_printable m (by rw [h]; simp))

theorem mc_text {t : Bytes} (h : ∀ b ∈ t, 32 ≤ b) : McOne [.raw (clientError ++ t ++ [13, 10])] := by
  unfold McOne written
  simpa [respond, render] using one_text (p := clientError) (Or.inl rfl) h

theorem mc_get_one (kind : Kind) (hp : e.proto = .memcache) (ks : List Bytes) (hk : ∀ k ∈ ks, Key k) (out : List W) (n : Nat) (ps : List Bytes) (hps : ∀ p ∈ ps, Piece p)
    (ho : written out = ps.flatten) : Always env oom e.now McOne (mgetLoop e kind ks out n) := by
  induction ks generalizing out n ps with
  | nil =>
    unfold mgetLoop
    rw [if_pos hp]
    refine .ret ?_
    have := one_list hps
    unfold McOne
    have hw : written (out ++ [.raw [69, 78, 68, 13, 10]]) = ps.flatten ++ ([69, 78, 68] ++ [13, 10]) := by
      rw [← ho]
      simp [written, respond, render]
    rw [hw]
    exact this
  | cons k ks ih =>
    unfold mgetLoop
    refine .call fun s r s' h => ?_
    rcases (load_step h).2 with ⟨_, rfl⟩ | ⟨it, _, rfl⟩
    · rw [if_pos rfl, if_neg (by rw [hp]; simp), List.append_nil]
      exact ih (fun k' hk' => hk k' (by simp [hk'])) out _ ps hps ho
    · rw [if_neg (by simp)]
      refine ih (fun k' hk' => hk k' (by simp [hk'])) _ _ (ps ++ [block (decide (kind = .mgets)) k it]) ?_ ?_
      · intro p hp'
        rcases List.mem_append.1 hp' with hp' | hp'
        · exact hps p hp'
        · rw [List.mem_singleton.1 hp']
          exact ⟨_, _, fun s f => read_block (hk k (by simp)) it s f⟩
      · have : written [W.raw (block (decide (kind = .mgets)) k it)] = block (decide (kind = .mgets)) k it := by simp [written, respond, render]
        simp only [List.flatMap_cons, List.flatMap_nil, List.append_nil, getEntry, hp, List.flatten_append, List.flatten_cons, List.flatten_nil]
        rw [← ho, ← this]
        unfold written
        rw [List.map_append, List.flatten_append]
        by_cases hk2 : kind = .mgets <;> simp [block, hk2]

theorem mc_set_one {name key val : Bytes} {ws : List Bytes} (hc : Clocks e) (hp : e.proto = .memcache) (hws : KeepsGet e ws) :
    Always env oom e.now (fun out => McOne out ∨ written out = notFoundNul) (cmdSET e (name :: key :: val :: ws)) := by
  have hk := hws [] ⟨0, false, false, false, false, false, 0, 0, false⟩
  rw [List.append_nil] at hk
  have hs : ∀ r, setLoop e ws ⟨0, false, false, false, false, false, 0, 0, false⟩ = .ok r → _ := fun r => setLoop_some hc ws (by simp)
  have herr : ∀ m, setLoop e ws ⟨0, false, false, false, false, false, 0, 0, false⟩ = .error m → _ := fun m => setLoop_err ws
  unfold cmdSET
  simp only []
  rcases hk with ⟨m, hk⟩ | hk | ⟨a, ha, hk⟩
  · rw [hk]
    exact .ret (Or.inl (mc_err (herr m hk)))
  · obtain ⟨z, hz, _⟩ := hs _ hk
    cases hz
  · obtain ⟨z, hz, h0⟩ := hs (some a) (by rw [hk, setLoop])
    cases hz
    rw [hk, setLoop]
    simp only []
    rw [if_neg (by omega)]
    refine .ite (fun _ => .ret (Or.inl (mc_err rfl))) fun _ => .ite (fun _ => .ret (Or.inl (mc_err rfl))) fun _ => ?_
    unfold execSET
    refine .call fun s r s' hr => .ret ?_
    have hsh := store_shown hr
    unfold setReply
    by_cases hn : r.status = .nomem
    · rw [if_pos hn, hsh.1 hn]
      exact Or.inl (mc_err rfl)
    · rw [if_neg hn, if_neg (by rw [ha]; simp)]
      simp only [hp]
      split
      · exact Or.inl (mc_simple (l := [83, 84, 79, 82, 69, 68]) (by simp [simpleReplies]))
      split
      · exact Or.inl (mc_simple (l := [69, 88, 73, 83, 84, 83]) (by simp [simpleReplies]))
      · exact Or.inr rfl

theorem mc_del_one {name key : Bytes} (hp : e.proto = .memcache) : Always env oom e.now McOne (cmdDEL e [name, key]) := by
  unfold cmdDEL delLoop delLoop
  refine .call fun s r s' hr => ?_
  simp only [hp]
  refine .ret ?_
  generalize (if r.status = .deleted then 0 + 1 else 0) = d
  by_cases hd : d = 0
  · rw [if_pos hd]
    exact mc_simple (l := [78, 79, 84, 95, 70, 79, 85, 78, 68]) (by simp [simpleReplies])
  · rw [if_neg hd]
    exact mc_simple (l := [68, 69, 76, 69, 84, 69, 68]) (by simp [simpleReplies])

theorem mc_append_one {name key val : Bytes} (hp : e.proto = .memcache) : Always env oom e.now McOne (cmdAPPEND e [name, key, val]) := by
  unfold cmdAPPEND
  simp only []
  refine .call fun s r s' h => ?_
  refine .ite (fun _ => ?_) fun _ => ?_
  · rw [if_pos hp]
    exact .ret (mc_simple (l := [78, 79, 84, 95, 83, 84, 79, 82, 69, 68]) (by simp [simpleReplies]))
  · refine .ite (fun _ => .ret (mc_err rfl)) fun _ => .call fun s r s' h => ?_
    rcases plain_step h with ⟨_, rfl, _⟩ | ⟨hs, _⟩
    · exact .ret (mc_err rfl)
    · rw [if_neg (by rcases hs with hs | hs <;> simp [hs]), if_pos hs, if_pos hp]
      exact .ret (mc_simple (l := [83, 84, 79, 82, 69, 68]) (by simp [simpleReplies]))

theorem mc_incr_one {name key x : Bytes} {decr : Bool} (hp : e.proto = .memcache) (hn : name.head?.map lower = some 117) :
    Always env oom e.now McOne (cmdINCRDECRBY e [name, key, x] decr) := by
  have h1 : McOne [.raw badDelta] := mc_text (t := badDelta.drop 13 |>.dropLast |>.dropLast) (by decide)
  have h2 : McOne [.raw nonNumericValue] := mc_text (t := nonNumericValue.drop 13 |>.dropLast |>.dropLast) (by decide)
  unfold cmdINCRDECRBY
  simp only [hn, decide_true]
  split
  · rw [if_pos hp]
    exact .ret h1
  · unfold execIncr
    refine .call fun s r s' h => ?_
    simp only []
    split
    · rw [if_pos hp]
      exact .ret h2
    · rename_i v expires flags cas hr
      refine .ite (fun _ => .ret (mc_simple (l := [78, 79, 84, 95, 70, 79, 85, 78, 68]) (by simp [simpleReplies]))) fun _ => ?_
      rw [if_neg (by rw [hp]; simp)]
      refine .call fun s r s' h => ?_
      rcases plain_step h with ⟨_, rfl, _⟩ | ⟨hs, _⟩
      · exact .ret (mc_err rfl)
      · rw [if_neg (by rcases hs with hs | hs <;> simp [hs]), if_pos hs, if_pos hp]
        refine .ret ?_
        unfold McOne written
        simpa [respond, render, text64] using one_number _

theorem mc_touch_one {name key x : Bytes} (hc : Clocks e) (hp : e.proto = .memcache) : Always env oom e.now McOne (cmdEXPIRE e [name, key, x]) := by
  unfold cmdEXPIRE
  simp only []
  split
  · exact .ret (mc_err rfl)
  · rename_i x hx
    obtain ⟨z, hz, hz2, _⟩ := mulClamp_some (parseI64_range hx) second_i64
    obtain ⟨w, hw, _⟩ := addClamp_some hc.1.2 hz2
    rw [hz]
    simp only [Option.bind_some, hw]
    refine .call fun s r s' h => ?_
    rw [if_pos hp]
    refine .ret ?_
    split
    · exact mc_simple (l := [84, 79, 85, 67, 72, 69, 68]) (by simp [simpleReplies])
    · exact mc_simple (l := [78, 79, 84, 95, 70, 79, 85, 78, 68]) (by simp [simpleReplies])

theorem mc_flush_one {args : List Bytes} (hp : e.proto = .memcache) : Always env oom e.now McOne (cmdFLUSHALL y e args) := by
  have hok : ∀ tag, McOne (okReply e tag) := by
    intro tag
    unfold okReply
    rw [if_neg (by rw [hp]; decide), if_pos hp]
    exact mc_simple (l := [79, 75]) (by simp [simpleReplies])
  unfold cmdFLUSHALL
  split
  · rename_i h
    exact .ret (mc_err (flushLoop_err _ h))
  · split
    · refine .ret ?_
      have := hok (flushName args ++ asyncTag)
      unfold McOne written at this ⊢
      simpa [respond, render] using this
    · split
      · exact .ret (mc_err rfl)
      · unfold flushWork
        exact always_calls (.ret (hok _))

theorem mc_stats_one {args : List Bytes} (hp : e.proto = .memcache) (hs : ∀ x ∈ y.stats, (∀ b ∈ x.1, b ≠ 13) ∧ ∀ b ∈ x.2, b ≠ 13) :
    Always env oom e.now McOne (cmdSTATS y e args) := by
  unfold cmdSTATS
  split
  · rw [if_pos hp]
    refine .ret ?_
    have := one_list (ps := y.stats.map fun x => [83, 84, 65, 84, 32] ++ (x.1 ++ [32] ++ x.2) ++ [13, 10]) (by
      intro p hp'
      obtain ⟨x, hx, rfl⟩ := List.mem_map.1 hp'
      refine piece_stat fun b hb => ?_
      simp only [List.mem_append, List.mem_singleton] at hb
      rcases hb with (hb | rfl) | hb
      · exact (hs x hx).1 b hb
      · decide
      · exact (hs x hx).2 b hb)
    unfold McOne
    have hw : written ((y.stats.map fun x => W.raw ([83, 84, 65, 84, 32] ++ x.1 ++ [32] ++ x.2 ++ [13, 10])) ++ [.raw [69, 78, 68, 13, 10]]) =
        (y.stats.map fun x => [83, 84, 65, 84, 32] ++ (x.1 ++ [32] ++ x.2) ++ [13, 10]).flatten ++ ([69, 78, 68] ++ [13, 10]) := by
      unfold written
      rw [List.map_append, List.map_map, List.flatten_append]
      congr 2
    rw [hw]
    exact this
  · exact .ret (mc_err rfl)

theorem mc_version_one (hp : e.proto = .memcache) (hv : ∀ b ∈ y.version, 32 ≤ b) : Always env oom e.now McOne (cmdVERSION y e) := by
  unfold cmdVERSION
  rw [if_pos hp]
  refine .ret ?_
  unfold McOne written
  simpa [respond, render] using one_text (p := [86, 69, 82, 83, 73, 79, 78, 32]) (Or.inr (Or.inr rfl)) hv

/-- A command by its name, on a connection that may have to authenticate. -/
theorem mc_known {P : List W → Prop} {name : Bytes} {as : List Bytes} {fn : Fn} {p : Prog (List W)} (hp : e.proto = .memcache) (hm : (name, fn) ∈ cmds)
    (hn : argeq name [97, 117, 116, 104] = false) (hcall : call e pw (admin y) fn (name :: as) st = p.map (·, st)) (hr : P [.raw authRequired])
    (h : Always env oom e.now P p) : Always env oom e.now (fun r => P r.1) (evcommand e pw (admin y) (name :: as) st) := by
  unfold evcommand
  simp only []
  split
  · refine .ret ?_
    unfold cmdAUTH
    simp only [List.headD_cons, hn, if_true, hp]
    exact hr
  · rw [List.headD_cons, getCmd_of spells_self hm]
    simp only [hcall]
    exact .map h

/-- **C77** (`_partial`: a storage command that finds nothing to replace writes a NUL behind its reply, see `not_found_nul`; `noreply` does not silence the
reply, see `Conn.noreply_is_answered`).  For all byte strings, states and interference: each request on a memcache connection is answered by exactly one reply
that a client can read and that ends where the client expects it to; `quit` by none.  (The version and the statistics are assumed to contain no line ends.) -/
theorem mc_one_reply_partial (hc : Clocks e) (hp : e.proto = .memcache) (hv : ∀ b ∈ y.version, 32 ≤ b)
    (hs : ∀ x ∈ y.stats, (∀ b ∈ x.1, b ≠ 13) ∧ ∀ b ∈ x.2, b ≠ 13) {data : Bytes} {r : Req} {n : Nat} (hd : parseMc data = .got (r, n)) {s s' : Spec.State}
    {bytes : Bytes} (h : Runs env I oom e.now (answer e pw (admin y) st r) s bytes s') :
    One bytes ∨ (∃ key v ws nr, r = .cmd (setName :: key :: v :: ws) nr ∧ bytes = notFoundNul) ∨ (∃ nr, r = .cmd [[113, 117, 105, 116]] nr ∧ bytes = []) := by
  cases r with
  | bad x =>
    rw [(runs_ret h).1]
    exact Or.inl (one_err (by cases x <;> decide))
  | cmd args nr =>
    have hsh := parse_shaped data
    rw [hd] at hsh
    replace hsh : Shape args := hsh
    obtain ⟨⟨out, st'⟩, h1, rfl⟩ := runs_map h
    have hauth : McOne [.raw authRequired] := mc_text (t := authRequired.drop 13 |>.dropLast |>.dropLast) (by decide)
    have fin : Always env oom e.now (fun r => McOne r.1) (evcommand e pw (admin y) args st) → One ((out.map respond).flatten) := fun ha => ha I s _ s' h1
    cases hsh with
    | get gets k ks hk =>
      refine Or.inl (fin ?_)
      cases gets
      · exact mc_known hp (show (mgetName, Fn.cmdMGET) ∈ cmds by decide) (by decide) rfl hauth (by
          unfold cmdMGET
          exact mc_get_one _ hp _ hk _ _ [] (by simp) (by rw [if_neg (by rw [hp]; simp), if_neg (by rw [hp]; simp)]; rfl))
      · exact mc_known hp (show (mgetsName, Fn.cmdMGET) ∈ cmds by decide) (by decide) rfl hauth (by
          unfold cmdMGET
          exact mc_get_one _ hp _ hk _ _ [] (by simp) (by rw [if_neg (by rw [hp]; simp), if_neg (by rw [hp]; simp)]; rfl))
    | set key v ws hws =>
      have := mc_known (P := fun out => McOne out ∨ written out = notFoundNul) (pw := pw) (y := y) (st := st) (env := env) (oom := oom) hp
        (show (setName, Fn.cmdSET) ∈ cmds by decide) (by decide) rfl (Or.inl hauth) (mc_set_one (name := setName) (key := key) (val := v) hc hp (hws e))
      rcases this I s _ s' h1 with h2 | h2
      · exact Or.inl h2
      · exact Or.inr (Or.inl ⟨key, v, ws, nr, rfl, h2⟩)
    | append prepend key v =>
      refine Or.inl (fin ?_)
      cases prepend
      · exact mc_known hp (show (([97, 112, 112, 101, 110, 100] : Bytes), Fn.cmdAPPEND) ∈ cmds by decide) (by decide) rfl hauth (mc_append_one hp)
      · exact mc_known hp (show (([112, 114, 101, 112, 101, 110, 100] : Bytes), Fn.cmdPREPEND) ∈ cmds by decide) (by decide) rfl hauth (mc_append_one hp)
    | del key => exact Or.inl (fin (mc_known hp (show (delName, Fn.cmdDEL) ∈ cmds by decide) (by decide) rfl hauth (mc_del_one hp)))
    | incr decr key x =>
      refine Or.inl (fin ?_)
      cases decr
      · exact mc_known hp (show (([117, 105, 110, 99, 114, 98, 121] : Bytes), Fn.cmdINCRBY) ∈ cmds by decide) (by decide) rfl hauth (mc_incr_one hp (by decide))
      · exact mc_known hp (show (([117, 100, 101, 99, 114, 98, 121] : Bytes), Fn.cmdDECRBY) ∈ cmds by decide) (by decide) rfl hauth (mc_incr_one hp (by decide))
    | touch key x => exact Or.inl (fin (mc_known hp (show (expireName, Fn.cmdEXPIRE) ∈ cmds by decide) (by decide) rfl hauth (mc_touch_one hc hp)))
    | flush as =>
      exact Or.inl (fin (mc_known hp (show (([102, 108, 117, 115, 104, 97, 108, 108] : Bytes), Fn.cmdFLUSHALL) ∈ cmds by decide) (by decide) rfl hauth
        (mc_flush_one hp)))
    | stats as =>
      exact Or.inl (fin (mc_known hp (show (([115, 116, 97, 116, 115] : Bytes), Fn.cmdSTATS) ∈ cmds by decide) (by decide) rfl hauth (mc_stats_one hp hs)))
    | version =>
      exact Or.inl (fin (mc_known hp (show (([118, 101, 114, 115, 105, 111, 110] : Bytes), Fn.cmdVERSION) ∈ cmds by decide) (by decide) rfl hauth
        (mc_version_one hp hv)))
    | quit =>
      have := mc_known (P := fun out => McOne out ∨ written out = []) (pw := pw) (y := y) (st := st) (env := env) (oom := oom) (as := []) (p := cmdQUIT e) hp
        (show (([113, 117, 105, 116] : Bytes), Fn.cmdQUIT) ∈ cmds by decide) (by decide) rfl (Or.inl hauth)
        (.ret (Or.inr (by rw [hp]; rfl)))
      rcases this I s _ s' h1 with h2 | h2
      · exact Or.inl h2
      · exact Or.inr (Or.inr ⟨nr, rfl, h2⟩)
    | unknown name as hn =>
      refine Or.inl (fin ?_)
      have hg : ∀ n ∈ ([[103, 97, 116], [103, 97, 116, 115], [118, 101, 114, 98, 111, 115, 105]] : List Bytes),
          getCmd n = some none ∧ argeq n [97, 117, 116, 104] = false ∧ ∀ b ∈ n, 32 ≤ b := by decide +kernel
      obtain ⟨g1, g2, g3⟩ := hg name hn
      unfold evcommand
      simp only []
      split
      · refine .ret ?_
        unfold cmdAUTH
        simp only [List.headD_cons, g2, if_true, hp]
        exact hauth
      · rw [List.headD_cons, g1]
        refine .ret ?_
        unfold McOne written
        simpa [respond] using one_err (server := false) (text_printable (.unknownCommand name) (by
          intro t ht
          cases ht
          exact g3))

/-- A client reads `n` replies. -/
def readN (f : Nat) : Nat → Bytes → Option (List (List (Bytes × Bytes) × Bytes) × Bytes)
  | 0, s => some ([], s)
  | n + 1, s => (read f s).bind fun x => (readN f n x.2.2).map fun y => ((x.1, x.2.1) :: y.1, y.2)

/-- Replies one behind the other: a client that reads one reply for each request finds them. -/
theorem mc_pipeline_reads {outs : List Bytes} (h : ∀ o ∈ outs, One o) : ∃ rs fuel, rs.length = outs.length ∧
    ∀ rest f, fuel ≤ f → readN f outs.length (outs.flatten ++ rest) = some (rs, rest) := by
  induction outs with
  | nil => exact ⟨[], 0, rfl, fun rest f _ => rfl⟩
  | cons o outs ih =>
    obtain ⟨parts, l, f1, _, _, h1⟩ := h o (by simp)
    obtain ⟨rs, f2, h2, h3⟩ := ih fun o' ho' => h o' (by simp [ho'])
    refine ⟨(parts, l) :: rs, f1 + f2, by simp [h2], fun rest f hf => ?_⟩
    rw [List.length_cons, readN, List.flatten_cons, List.append_assoc, h1 _ _ (by omega)]
    simp only [Option.bind_some]
    rw [h3 _ _ (by omega)]
    rfl

/-- **C77, negation.**  `replace k 0 0 1` with the data `a`, where `k` does not exist, and then `delete k`: a client that reads two replies gets `NOT_FOUND`, and then
a line that is no reply, because it begins with a NUL. -/
theorem not_found_nul : ∃ r1 r2 s b1 b2,
    parseMc ([114, 101, 112, 108, 97, 99, 101, 32, 107, 32, 48, 32, 48, 32, 49, 13, 10] ++ [97, 13, 10]) = .got (r1, 20) ∧
    parseMc [100, 101, 108, 101, 116, 101, 32, 107, 13, 10] = .got (r2, 10) ∧
    Runs ⟨true, false, fun _ => 0⟩ alone false 5 (answer (at_ .memcache 5) [] (admin sys1) ⟨true⟩ r1) ⟨fun _ => none, fun _ => 0⟩ b1 s ∧
    Runs ⟨true, false, fun _ => 0⟩ alone false 5 (answer (at_ .memcache 5) [] (admin sys1) ⟨true⟩ r2) s b2 s ∧
    ∃ l, readN 9 2 (b1 ++ b2) = some ([([], [78, 79, 84, 95, 70, 79, 85, 78, 68]), ([], l)], []) ∧ ¬ Final l := by
  refine ⟨.cmd [setName, [107], [97], [120, 120]] false, .cmd [delName, [107]] false, ⟨fun _ => none, update (fun _ => 0) 0 1⟩, notFoundNul,
    [78, 79, 84, 95, 70, 79, 85, 78, 68, 13, 10], by decide +kernel, by decide +kernel, ?_, ?_, [0, 78, 79, 84, 95, 70, 79, 85, 78, 68], by rfl, ?_⟩
  · refine runs_map_of (a := (([.raw notFoundNul], ⟨true⟩) : List W × ConnSt)) ?_
    rw [evcommand_known (low := setName) (fn := .cmdSET) spells_self (by decide)]
    refine .call (s1 := ⟨fun _ => none, fun _ => 0⟩) (r := ⟨.notfound, []⟩) (s2 := ⟨fun _ => none, update (fun _ => 0) 0 1⟩) rfl ?_ (.ret _ _)
    unfold Spec.Step
    exact Or.inr ⟨rfl, rfl⟩
  · refine runs_map_of (a := (([.raw [78, 79, 84, 95, 70, 79, 85, 78, 68, 13, 10]], ⟨true⟩) : List W × ConnSt)) ?_
    rw [evcommand_known (low := delName) (fn := .cmdDEL) spells_self (by decide)]
    refine .call (s1 := ⟨fun _ => none, update (fun _ => 0) 0 1⟩) (r := ⟨.notfound, []⟩) (s2 := ⟨fun _ => none, update (fun _ => 0) 0 1⟩) rfl ?_ (.ret _ _)
    unfold Spec.Step
    exact ⟨rfl, rfl⟩
  · rintro (h | ⟨n, h⟩ | ⟨t, _, h | h | h⟩)
    · revert h; decide
    · revert h
      rw [show natOf [0, 78, 79, 84, 95, 70, 79, 85, 78, 68] = none by decide]
      simp
    all_goals
      have := congrArg List.head? h
      simp [clientError, serverError] at this

/-- Hypotheses of `mc_one_reply_partial` and `mc_pipeline_reads`: `gets k z`, where `k` exists and `z` does not. -/
example : Clocks (at_ .memcache 5) ∧ (∀ b ∈ sys1.version, 32 ≤ b) ∧ (∀ x ∈ sys1.stats, (∀ b ∈ x.1, b ≠ 13) ∧ ∀ b ∈ x.2, b ≠ 13) ∧
    parseMc [103, 101, 116, 115, 32, 107, 32, 122, 13, 10] = .got (.cmd [mgetsName, [107], [122]] false, 10) ∧
    (∃ s s', Runs ⟨true, false, fun _ => 0⟩ busy false 5 (answer (at_ .memcache 5) [] (admin sys1) ⟨true⟩ (.cmd [mgetsName, [107], [122]] false)) s
      (block true [107] ⟨[120], 0, 0, 1⟩ ++ [69, 78, 68, 13, 10]) s') ∧
    ∀ o ∈ [block true [107] ⟨[120], 0, 0, 1⟩ ++ [69, 78, 68, 13, 10], [79, 75, 13, 10]], One o := by
  refine ⟨by simp only [Clocks, at_, IsI64]; decide, by decide, by decide, by decide +kernel, ⟨st1, st1, ?_⟩, ?_⟩
  · refine runs_map_of (a := (([.raw (block true [107] ⟨[120], 0, 0, 1⟩), .raw [69, 78, 68, 13, 10]], ⟨true⟩) : List W × ConnSt)) ?_
    rw [evcommand_known (low := mgetsName) (fn := .cmdMGET) spells_self (by decide)]
    refine .call (s1 := st1) (r := ⟨.found, [([107], ⟨[120], 0, 0, 1⟩)]⟩) (s2 := st1) trivial ?_ ?_
    · unfold Spec.Step
      simp only []
      rw [show st1.dict.get 5 [107] = some ⟨[120], 0, 0, 1⟩ from rfl]
      exact ⟨rfl, trivial⟩
    refine .call (s1 := st1) (r := ⟨.notfound, []⟩) (s2 := st1) trivial ?_ (.ret _ _)
    · unfold Spec.Step
      simp only []
      rw [show st1.dict.get 5 [122] = none from rfl]
      exact ⟨trivial, trivial⟩
  · intro o ho
    simp only [List.mem_cons, List.not_mem_nil, or_false] at ho
    rcases ho with rfl | rfl
    · have := one_list (ps := [block true [107] ⟨[120], 0, 0, 1⟩]) (by
        intro p hp
        rw [List.mem_singleton.1 hp]
        exact ⟨_, _, fun s f => read_block (by unfold Key; decide) _ s f⟩)
      simpa using this
    · exact one_simple (l := [79, 75]) (by decide)

end Verif.Mc
