import Mathlib.Tactic.Common
import Verif.Low.Props
import Verif.Low.Told
import Verif.Wire.Examples

/-!
C108: concrete cases.
-/

namespace Verif.Low.Example

open Verif.Num Verif.Resp Verif.Cmd Verif.Cache Verif.Shard Verif.Map Verif.Wire Verif.Wire.Example Function

/-- A cache that evicts, or not; all keys in one shard, different first bytes in different buckets. -/
def ctx (noevict : Bool) : Ctx := ⟨true, false, noevict, true, 75, fun k => (k.headD 0).toNat * 64 + 63⟩

theorem ctx_valid (b : Bool) : (ctx b).Valid := by cases b <;> (unfold Ctx.Valid; decide)

/-- `SET a 1`, `SET b 2`, `SET c 3`, `GET a`, `GET b`, `GET c`. -/
def asks : List Ask :=
  [.set [97] [49] .always .ever, .set [98] [50] .always .ever, .set [99] [51] .always .ever, .get [97], .get [98], .get [99]]

/-- As words. -/
def words : List (List Bytes) :=
  [[[83, 69, 84], [97], [49]], [[83, 69, 84], [98], [50]], [[83, 69, 84], [99], [51]], [[71, 69, 84], [97]], [[71, 69, 84], [98]], [[71, 69, 84], [99]]]

/-- A SET on the wire. -/
def setWire (k v : UInt8) : Bytes := [42, 51, 13, 10, 36, 51, 13, 10, 83, 69, 84, 13, 10, 36, 49, 13, 10, k, 13, 10, 36, 49, 13, 10, v, 13, 10]

/-- A GET on the wire. -/
def getWire (k : UInt8) : Bytes := [42, 50, 13, 10, 36, 51, 13, 10, 71, 69, 84, 13, 10, 36, 49, 13, 10, k, 13, 10]

/-- On the wire. -/
def wire : List Bytes := [setWire 97 49, setWire 98 50, setWire 99 51, getWire 97, getWire 98, getWire 99]

/-- In pieces of nine bytes. -/
def chunks : List Bytes := (List.range 20).map fun i => (wire.flatten.drop (9 * i)).take 9

/-- Ten seconds between two commands; memory is low from the second command on. -/
def clock (i : Nat) : Env := ⟨1000 + 10000000000 * min i 100, 10 ^ 18, decide (1 ≤ i), .resp⟩

theorem written : List.Forall₂ Words asks words := by
  have sp : ∀ w low : Bytes, low.map lower = low → w.map lower = low → Spells w low := fun w low h h' => (spells_iff w low h).2 h'
  have hs : ∀ k v : Bytes, Words (.set k v .always .ever) [[83, 69, 84], k, v] := fun k v => .set (sp _ _ (by decide) (by decide)) .always .ever (Or.inl rfl)
  have hg : ∀ k : Bytes, Words (.get k) [[71, 69, 84], k] := fun k => .get (sp _ _ (by decide) (by decide))
  exact .cons (hs _ _) (.cons (hs _ _) (.cons (hs _ _) (.cons (hg _) (.cons (hg _) (.cons (hg _) .nil)))))

theorem encoded : List.Forall₂ Enc words wire := by
  have arg : ∀ (a t : Bytes), Resp.NumText t a.length → a.length ≤ 536870912 → EncArg a (36 :: (t ++ [13, 10] ++ a ++ [13, 10])) :=
    fun a t h h' => ⟨t, h, h', rfl⟩
  have num : ∀ (t : Bytes) (n : Nat), (t ≠ [] ∧ t.length ≤ 32 ∧ (∀ b ∈ t, b ∈ ([48, 49, 50, 51, 52, 53, 54, 55, 56, 57] : Bytes)) ∧ decimal t = n) → Resp.NumText t n :=
    fun t n h => h
  have one : ∀ k : UInt8, EncArg [k] [36, 49, 13, 10, k, 13, 10] := fun k => arg [k] [49] (num _ 1 (by decide)) (by simp)
  have hs : ∀ k v : UInt8, Enc [[83, 69, 84], [k], [v]] (setWire k v) := fun k v =>
    ⟨[51], _, num _ 3 (by decide), by simp, .cons (arg _ [51] (num _ _ (by decide)) (by decide)) (.cons (one _)
      (.cons (one _) .nil)), rfl⟩
  have hg : ∀ k : UInt8, Enc [[71, 69, 84], [k]] (getWire k) := fun k =>
    ⟨[50], _, num _ 2 (by decide), by simp, .cons (arg _ [51] (num _ _ (by decide)) (by decide)) (.cons (one _) .nil), rfl⟩
  exact .cons (hs _ _) (.cons (hs _ _) (.cons (hs _ _) (.cons (hg _) (.cons (hg _) (.cons (hg _) .nil)))))

/-- Hypotheses of `low_served`, and what is sent.  The cache that evicts answers OK three times; `b` made room for `c`.  The other one answers OK once, and refuses twice. -/
example : (∀ b, (ctx b).Valid ∧ AllInv (ctx b) 4 (newCache (ctx b)) ∧ R (ctx b) 4 0 (newCache (ctx b)) ⟨fun _ => none, fun _ => 1⟩) ∧ (∀ i, Fine (clock i)) ∧
    (∀ i, (clock i).now ≤ (clock (i + 1)).now) ∧ List.Forall₂ Words asks words ∧ List.Forall₂ Enc words wire ∧ chunks.flatten <+: wire.flatten ∧
    (sentOf (serve (ctx false) 4 [] sys clock (fun _ _ => .more) id (newCache (ctx false)) chunks) =
      some ([43, 79, 75, 13, 10, 43, 79, 75, 13, 10, 43, 79, 75, 13, 10, 36, 49, 13, 10, 49, 13, 10, 36, 45, 49, 13, 10, 36, 49, 13, 10, 51, 13, 10], true)) ∧
    (sentOf (serve (ctx true) 4 [] sys clock (fun _ _ => .more) id (newCache (ctx true)) chunks) =
      some ([43, 79, 75, 13, 10] ++ [45, 69, 82, 82, 32, 111, 117, 116, 32, 111, 102, 32, 109, 101, 109, 111, 114, 121, 13, 10] ++
        [45, 69, 82, 82, 32, 111, 117, 116, 32, 111, 102, 32, 109, 101, 109, 111, 114, 121, 13, 10] ++
        [36, 49, 13, 10, 49, 13, 10, 36, 45, 49, 13, 10, 36, 45, 49, 13, 10], true)) := by
  refine ⟨fun b => ⟨ctx_valid b, allInv_new (ctx_valid b) 4, R_new (ctx b) 4 0⟩, fun i => ?_, fun i => ?_, written, encoded, by decide +kernel, ?_, ?_⟩
  · unfold Fine clock IsI64
    refine ⟨rfl, ?_, ?_⟩ <;> dsimp only <;> omega
  · unfold clock; dsimp only; omega
  · decide +kernel
  · decide +kernel

/-- Hypotheses of `never_wrong`: `SET a 1`, then `SET b 2` evicts `a`; `GET a` is null though the client was told that `a` is there. -/
example : ∃ m', Conversation ([(1, .plenty, .set [97] [49] .always .ever), (2, .evict, .set [98] [50] .always .ever)] ++ [(3, .evict, .get [97])])
      (fun _ => none) ([okay, okay] ++ [.null]) m' ∧
    (toldAll [(1, .plenty, .set [97] [49] .always .ever), (2, .evict, .set [98] [50] .always .ever)] [okay, okay] (fun _ => none)).see 3 [97] = some ⟨[49], none⟩ ∧
    (∀ q ∈ [((1 : Int), Room.plenty, Ask.set [97] [49] .always .ever), (2, .evict, .set [98] [50] .always .ever)], Fresh q.2.2) := by
  have : ∀ {m : Store}, m.see 3 [97] = none → Wire.Serves 3 m (.get [97]) .null m := fun {m} h => by
    have := Wire.Serves.get (now := 3) (m := m) (k := [97])
    rwa [h] at this
  exact ⟨_, .cons (.as (.set trivial) (by intro h; cases h)) (.cons (.evict (v := [97]) rfl rfl (by decide) (.set trivial) (by decide))
    (.cons (.as (this (by decide)) (by intro; rfl)) (.nil _))), by decide, by simp [Fresh]⟩

/-- APPEND after the eviction is why `never_wrong` leaves it out: the value is then only what was appended. -/
example : ∃ m', Conversation [(1, .plenty, .set [97] [49] .always .ever), (2, .evict, .set [98] [50] .always .ever), (3, .plenty, .join false [97] [53])]
      (fun _ => none) [okay, okay, .int 1] m' ∧ m' [97] = some ⟨[53], none⟩ := by
  refine ⟨_, .cons (.as (.set trivial) (by intro h; cases h)) (.cons (.evict (v := [97]) rfl rfl (by decide) (.set trivial) (by decide))
    (.cons (.as (.joinNew (by decide)) (by intro; rfl)) (.nil _))), by decide⟩

end Verif.Low.Example
