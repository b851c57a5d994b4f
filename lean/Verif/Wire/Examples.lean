import Mathlib.Tactic.Common
import Verif.Wire.Props

/-!
C98: the server in mind gives one reply, and a concrete case.
-/

namespace Verif.Wire

open Verif.Num Verif.Resp Verif.Cmd Verif.Cache Verif.Shard Verif.Map Function

/-- **C98.**  The reply and the effect are determined, up to the text of an error. -/
theorem serves_unique {now : Int} {m m1 m2 : Store} {a : Ask} {r1 r2 : Reply} (h1 : Serves now m a r1 m1) (h2 : Serves now m a r2 m2) :
    m1 = m2 ∧ (r1 = r2 ∨ ∃ t t', r1 = .error t ∧ r2 = .error t') := by
  have huniq : ∀ {t : Bytes} {x x' : Int}, IsNumber t x → IsNumber t x' → x = x' := by
    intro t x x' h h'
    rw [isNumber_iff] at h h'
    rw [h] at h'
    simpa using h'
  have no : ∀ {k : Bytes} {x : Kept} {P : Prop}, m.see now k = none → m.see now k = some x → P := by
    intro k x P h h'; rw [h] at h'; cases h'
  have same : ∀ {k : Bytes} {x x' : Kept}, m.see now k = some x → m.see now k = some x' → x = x' := by
    intro k x x' h h'; rw [h] at h'; simpa using h'
  cases h1 with
  | ttlMissing h =>
    cases h2 with
    | ttlMissing _ => exact ⟨rfl, Or.inl rfl⟩
    | ttlEver h' => exact no h h'
    | ttl h' => exact no h h'
  | ttlEver h =>
    cases h2 with
    | ttlMissing h' => exact no h' h
    | ttlEver h' => exact ⟨rfl, Or.inl rfl⟩
    | ttl h' => cases same h h'
  | ttl h =>
    cases h2 with
    | ttlMissing h' => exact no h' h
    | ttlEver h' => cases same h h'
    | ttl h' => cases same h h'; exact ⟨rfl, Or.inl rfl⟩
  | set h =>
    cases h2 with
    | set _ => exact ⟨rfl, Or.inl rfl⟩
    | setNot h' => exact absurd h h'
  | setNot h =>
    cases h2 with
    | set h' => exact absurd h' h
    | setNot h' => exact ⟨rfl, Or.inl rfl⟩
  | expireMissing h =>
    cases h2 with
    | expireMissing _ => exact ⟨rfl, Or.inl rfl⟩
    | expire h' => exact no h h'
  | expire h =>
    cases h2 with
    | expireMissing h' => exact no h' h
    | expire h' => cases same h h'; exact ⟨rfl, Or.inl rfl⟩
  | joinNew h =>
    cases h2 with
    | joinNew _ => exact ⟨rfl, Or.inl rfl⟩
    | join h' _ => exact no h h'
    | joinTooLong h' _ => exact no h h'
  | join h hl =>
    cases h2 with
    | joinNew h' => exact no h' h
    | join h' _ => cases same h h'; exact ⟨rfl, Or.inl rfl⟩
    | joinTooLong h' hl' => cases same h h'; omega
  | joinTooLong h hl =>
    cases h2 with
    | joinNew h' => exact no h' h
    | join h' hl' => cases same h h'; omega
    | joinTooLong h' hl' => exact ⟨rfl, Or.inr ⟨_, _, rfl, rfl⟩⟩
  | addNew h =>
    cases h2 with
    | addNew _ => exact ⟨rfl, Or.inl rfl⟩
    | add h' _ _ => exact no h h'
    | addOver h' _ _ => exact no h h'
    | addNot h' _ => exact no h h'
  | add h hn hi =>
    cases h2 with
    | addNew h' => exact no h' h
    | add h' hn' hi' => cases same h h'; cases huniq hn hn'; exact ⟨rfl, Or.inl rfl⟩
    | addOver h' hn' hi' => cases same h h'; cases huniq hn hn'; exact absurd hi hi'
    | addNot h' hn' => cases same h h'; exact absurd ⟨_, hn⟩ hn'
  | addOver h hn hi =>
    cases h2 with
    | addNew h' => exact no h' h
    | add h' hn' hi' => cases same h h'; cases huniq hn hn'; exact absurd hi' hi
    | addOver h' hn' hi' => exact ⟨rfl, Or.inr ⟨_, _, rfl, rfl⟩⟩
    | addNot h' hn' => exact ⟨rfl, Or.inr ⟨_, _, rfl, rfl⟩⟩
  | addNot h hn =>
    cases h2 with
    | addNew h' => exact no h' h
    | add h' hn' hi' => cases same h h'; exact absurd ⟨_, hn'⟩ hn
    | addOver h' hn' hi' => exact ⟨rfl, Or.inr ⟨_, _, rfl, rfl⟩⟩
    | addNot h' hn' => exact ⟨rfl, Or.inr ⟨_, _, rfl, rfl⟩⟩
  | ping | echo | get | mget | exist | touch | swap | del => cases h2; exact ⟨rfl, Or.inl rfl⟩

namespace Example

/-- `set k 41 EX 100`, `INCR k`, `GET k`, `TTL k`, `DEL k k z`. -/
def asks : List Ask :=
  [.set [107] [52, 49] .always (.span 100000000000), .add [107] 1, .get [107], .ttl false [107], .del [[107], [107], [122]]]

/-- As words. -/
def words : List (List Bytes) :=
  [[[115, 101, 116], [107], [52, 49], [69, 88], [49, 48, 48]], [[73, 78, 67, 82], [107]], [[71, 69, 84], [107]], [[84, 84, 76], [107]],
   [[68, 69, 76], [107], [107], [122]]]

/-- On the wire. -/
def wire : List Bytes :=
  [[42, 53, 13, 10, 36, 51, 13, 10, 115, 101, 116, 13, 10, 36, 49, 13, 10, 107, 13, 10, 36, 50, 13, 10, 52, 49, 13, 10, 36, 50, 13, 10, 69, 88, 13, 10, 36, 51, 13, 10, 49, 48, 48, 13, 10],
   [42, 50, 13, 10, 36, 52, 13, 10, 73, 78, 67, 82, 13, 10, 36, 49, 13, 10, 107, 13, 10],
   [42, 50, 13, 10, 36, 51, 13, 10, 71, 69, 84, 13, 10, 36, 49, 13, 10, 107, 13, 10],
   [42, 50, 13, 10, 36, 51, 13, 10, 84, 84, 76, 13, 10, 36, 49, 13, 10, 107, 13, 10],
   [42, 52, 13, 10, 36, 51, 13, 10, 68, 69, 76, 13, 10, 36, 49, 13, 10, 107, 13, 10, 36, 49, 13, 10, 107, 13, 10, 36, 49, 13, 10, 122, 13, 10]]

/-- In pieces of seven bytes, with the last byte missing. -/
def chunks : List Bytes := (List.range 20).map fun i => (wire.flatten.dropLast.drop (7 * i)).take 7

/-- Ten seconds between two commands. -/
def clock (i : Nat) : Env := ⟨1000 + 10000000000 * min i 100, 10 ^ 18, false, .resp⟩

theorem written : List.Forall₂ Words asks words := by
  have sp : ∀ w low : Bytes, low.map lower = low → w.map lower = low → Spells w low := fun w low h h' => (spells_iff w low h).2 h'
  refine .cons (.set (sp _ _ (by decide) (by decide)) .always (.ex (x := 100) (sp _ _ (by decide) (by decide)) ?_ (by decide)) (Or.inl rfl))
    (.cons (.incr (sp _ _ (by decide) (by decide))) (.cons (.get (sp _ _ (by decide) (by decide)))
    (.cons (.ttl (ms := false) (sp _ _ (by decide) (by decide))) (.cons (.del (sp _ _ (by decide) (by decide)) (by decide)) .nil))))
  have : parseI64 [49, 48, 48] = some 100 := by decide +kernel
  rcases (parseI64_iff _ _).1 this with ⟨h, _⟩ | h
  · cases h
  · exact h

theorem encoded : List.Forall₂ Enc words wire := by
  have arg : ∀ (a t : Bytes), Resp.NumText t a.length → a.length ≤ 536870912 → EncArg a (36 :: (t ++ [13, 10] ++ a ++ [13, 10])) :=
    fun a t h h' => ⟨t, h, h', rfl⟩
  have num : ∀ (t : Bytes) (n : Nat), (t ≠ [] ∧ t.length ≤ 32 ∧ (∀ b ∈ t, b ∈ ([48, 49, 50, 51, 52, 53, 54, 55, 56, 57] : Bytes)) ∧ decimal t = n) → Resp.NumText t n :=
    fun t n h => h
  refine .cons ⟨[53], _, num _ _ (by decide), by decide, .cons (arg _ [51] (num _ _ (by decide)) (by decide)) (.cons (arg _ [49] (num _ _ (by decide)) (by decide))
      (.cons (arg _ [50] (num _ _ (by decide)) (by decide)) (.cons (arg _ [50] (num _ _ (by decide)) (by decide)) (.cons (arg _ [51] (num _ _ (by decide)) (by decide)) .nil)))), rfl⟩ ?_
  refine .cons ⟨[50], _, num _ _ (by decide), by decide, .cons (arg _ [52] (num _ _ (by decide)) (by decide)) (.cons (arg _ [49] (num _ _ (by decide)) (by decide)) .nil), rfl⟩ ?_
  refine .cons ⟨[50], _, num _ _ (by decide), by decide, .cons (arg _ [51] (num _ _ (by decide)) (by decide)) (.cons (arg _ [49] (num _ _ (by decide)) (by decide)) .nil), rfl⟩ ?_
  refine .cons ⟨[50], _, num _ _ (by decide), by decide, .cons (arg _ [51] (num _ _ (by decide)) (by decide)) (.cons (arg _ [49] (num _ _ (by decide)) (by decide)) .nil), rfl⟩ ?_
  exact .cons ⟨[52], _, num _ _ (by decide), by decide, .cons (arg _ [51] (num _ _ (by decide)) (by decide)) (.cons (arg _ [49] (num _ _ (by decide)) (by decide))
      (.cons (arg _ [49] (num _ _ (by decide)) (by decide)) (.cons (arg _ [49] (num _ _ (by decide)) (by decide)) .nil))), rfl⟩ .nil

/-- What was sent, and whether the cache is still there. -/
def sentOf : PR (Conn Srv) → Option (Bytes × Bool)
  | .got c => some (c.st.sent, match c.st.cache with | .val shs => noWrapB 4 shs | _ => false)
  | _ => none

/-- A machine; none of it matters here. -/
def sys : Sys := ⟨4, 4, id, true, [], [], fun _ _ _ => true, fun _ => [], 0, fun _ _ _ => none, [], [], fun _ => true, fun _ => 0⟩

/-- Hypotheses of `pipeline_served` and `serves_unique`, and what is sent: `+OK`, `:42`, `$2 42`, `:70`; the last command is not complete. -/
example : ctx4.Valid ∧ AllInv ctx4 4 (newCache ctx4) ∧ R ctx4 4 0 (newCache ctx4) ⟨fun _ => none, fun _ => 1⟩ ∧ (∀ i, Fine (clock i)) ∧
    (∀ i, (clock i).now ≤ (clock (i + 1)).now) ∧ List.Forall₂ Words asks words ∧ List.Forall₂ Enc words wire ∧ chunks.flatten <+: wire.flatten ∧
    (sentOf (serve ctx4 4 [] sys clock (fun _ _ => .more) id (newCache ctx4) chunks) =
      some ([43, 79, 75, 13, 10, 58, 52, 50, 13, 10, 36, 50, 13, 10, 52, 50, 13, 10, 58, 55, 48, 13, 10], true)) ∧
    Serves 5 (fun _ => none) (.add [107] 1) (.int 1) (update (fun _ => none) [107] (some ⟨shown 1, none⟩)) := by
  refine ⟨ctx4_valid, allInv_new ctx4_valid 4, R_new ctx4 4 0, fun i => ?_, fun i => ?_, written, encoded, by decide +kernel, ?_, .addNew rfl⟩
  · unfold Fine clock IsI64
    refine ⟨rfl, ?_, ?_, rfl⟩ <;> dsimp only <;> omega
  · unfold clock; dsimp only; omega
  · decide +kernel

end Example

end Verif.Wire
