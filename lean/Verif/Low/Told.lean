import Mathlib.Tactic.Common
import Verif.Low.Spec

/-!
C108: values may be missing, but they are never wrong.
-/

namespace Verif.Low

open Verif.Resp Verif.Cmd Verif.Wire Function

/-- What a client knows about the keys, given what was there before, its command and the reply: the value of the last SET that was not refused, with the life that was given to it. -/
def told (now : Int) (a : Ask) (r : Reply) (m : Store) : Store :=
  match a, r with
  | .set k v _ l, .simple [79, 75] => update m k (some ⟨v, l.upto now none⟩)
  | .swap k v, .bulk _ => update m k (some ⟨v, none⟩)
  | .swap k v, .null => update m k (some ⟨v, none⟩)
  | .del ks, _ => fun k => if k ∈ ks then none else m k
  | .expire k secs, .int 1 => update m k ((m k).map fun x => ⟨x.value, some (min (now + secs * 1000000000) (2 ^ 63 - 1))⟩)
  | _, _ => m

/-- All that a client was told. -/
def toldAll : List (Int × Room × Ask) → List Reply → Store → Store
  | (now, _, a) :: l, r :: rs, m => toldAll l rs (told now a r m)
  | _, _, m => m

/-- Commands whose effect does not depend on an old value: no APPEND, PREPEND, INCR, DECR, and no KEEPTTL. -/
def Fresh : Ask → Prop
  | .join .. | .add .. => False
  | .set _ _ _ l => l ≠ .kept
  | _ => True

/-- Part of what is there. -/
def Part (m M : Store) : Prop := ∀ k x, m k = some x → M k = some x

theorem see_some {m : Store} {now : Int} {k : Bytes} {x : Kept} (h : m.see now k = some x) : m k = some x := by
  unfold Store.see at h
  rw [Option.filter_eq_some_iff] at h
  exact h.1

theorem Part.see {m M : Store} (h : Part m M) {now : Int} {k : Bytes} {x : Kept} (hx : m.see now k = some x) : M.see now k = some x := by
  have h1 := see_some hx
  unfold Store.see at hx ⊢
  rw [h _ _ h1]
  rw [h1] at hx
  exact hx

theorem Part.set {m M : Store} (h : Part m M) (k : Bytes) (x : Option Kept) : Part (update m k x) (update M k x) := by
  intro k' x' hx
  by_cases hk : k' = k
  · subst hk
    rw [update_self] at hx ⊢
    exact hx
  · rw [update_of_ne hk] at hx ⊢
    exact h _ _ hx

theorem upto_fresh {l : Life} (h : l ≠ .kept) (now : Int) (o : Option Kept) : l.upto now o = l.upto now none := by
  cases l <;> first | rfl | exact absurd rfl h

theorem told_plain {now : Int} {m m' : Store} {a : Ask} {r : Reply} (hf : Fresh a) (h : Wire.Serves now m a r m') : told now a r m = m' := by
  cases h with
  | set _ => simp only [told, okay]; rw [upto_fresh hf now (m.see now _)]
  | swap =>
    cases hm : m.see now _ <;> rfl
  | expire h => simp only [told, see_some h, Option.map_some]; rfl
  | join | joinNew | joinTooLong | add | addNew | addOver | addNot => exact hf.elim
  | _ => rfl

theorem told_mono {now : Int} {m M : Store} (h : Part m M) (a : Ask) (r : Reply) : Part (told now a r m) (told now a r M) := by
  unfold told
  split
  · exact h.set _ _
  · exact h.set _ _
  · exact h.set _ _
  · intro k x hx
    simp only [] at hx ⊢
    split at hx
    · cases hx
    · rename_i hk
      rw [if_neg hk]
      exact h _ _ hx
  · rename_i k secs
    intro k' x' hx
    by_cases hk : k' = k
    · subst hk
      rw [update_self] at hx ⊢
      rw [Option.map_eq_some_iff] at hx
      obtain ⟨y, hy, rfl⟩ := hx
      rw [h _ _ hy]
      rfl
    · rw [update_of_ne hk] at hx ⊢
      exact h _ _ hx
  · exact h

theorem part_refl (m : Store) : Part m m := fun _ _ h => h

theorem told_refused {now : Int} {m : Store} {a : Ask} {k : Bytes} (ha : stores a = some k) : told now a tooFull m = m := by
  cases a <;> first | rfl | cases ha

theorem part_step {now : Int} {room : Room} {m m' M : Store} {a : Ask} {r : Reply} (hp : Part m M) (hf : Fresh a) (h : Serves now room m a r m') :
    Part m' (told now a r M) := by
  cases h with
  | as h _ => rw [← told_plain hf h]; exact told_mono hp _ _
  | @evict _ _ k0 v _ _ _ h _ =>
    rw [← told_plain hf h]
    intro k x hx
    by_cases hk : k = v
    · subst hk; rw [update_self] at hx; cases hx
    · rw [update_of_ne hk] at hx; exact told_mono hp _ _ _ _ hx
  | refuse _ hs => rw [told_refused hs]; exact hp

theorem part_all {l : List (Int × Room × Ask)} {m m' M : Store} {rs : List Reply} (hp : Part m M) (hf : ∀ q ∈ l, Fresh q.2.2) (h : Conversation l m rs m') :
    Part m' (toldAll l rs M) := by
  induction h generalizing M with
  | nil m => exact hp
  | cons h1 _ ih => exact ih (part_step hp (hf _ List.mem_cons_self) h1) (fun q hq => hf q (by simp [hq]))

theorem same_all {l : List (Int × Room × Ask)} {m m' : Store} {rs : List Reply} (hf : ∀ q ∈ l, Fresh q.2.2 ∧ q.2.1 ≠ .evict) (h : Conversation l m rs m') :
    m' = toldAll l rs m := by
  induction h with
  | nil m => rfl
  | cons h1 _ ih =>
    rw [ih (fun q hq => hf q (by simp [hq])), toldAll]
    congr 1
    obtain ⟨h2, h3⟩ := hf _ (List.mem_cons_self)
    cases h1 with
    | as h _ => exact (told_plain h2 h).symm
    | evict he _ _ _ _ => exact absurd he h3
    | refuse _ hs => exact (told_refused hs).symm

theorem conversation_snoc {l : List (Int × Room × Ask)} {q : Int × Room × Ask} {m m' : Store} {rs : List Reply} (h : Conversation (l ++ [q]) m rs m') :
    ∃ rs1 r m1, rs = rs1 ++ [r] ∧ Conversation l m rs1 m1 ∧ Serves q.1 q.2.1 m1 q.2.2 r m' := by
  induction l generalizing m rs with
  | nil =>
    cases h with
    | cons h1 h2 =>
      cases h2
      exact ⟨[], _, m, rfl, .nil m, h1⟩
  | cons p l ih =>
    cases h with
    | cons h1 h2 =>
      obtain ⟨rs1, r, m1, rfl, h3, h4⟩ := ih h2
      exact ⟨_ :: rs1, r, m1, rfl, .cons h1 h3, h4⟩

/-- **C108.**  Whenever memory is low and whatever is evicted: GET answers "no such key", or exactly the value of the last SET of this key that was acknowledged (and
not deleted or run out since).  If nothing may be evicted, it is always that value. -/
theorem never_wrong {l : List (Int × Room × Ask)} {now : Int} {room : Room} {k : Bytes} {m m' : Store} {rs : List Reply} {r : Reply}
    (h : Conversation (l ++ [(now, room, .get k)]) m (rs ++ [r]) m') (hf : ∀ q ∈ l, Fresh q.2.2) :
    (r = .null ∨ r = asReply ((toldAll l rs m).see now k)) ∧ ((∀ q ∈ l, q.2.1 ≠ .evict) → r = asReply ((toldAll l rs m).see now k)) := by
  obtain ⟨rs1, r1, m1, h1, h2, h3⟩ := conversation_snoc h
  obtain ⟨rfl, h4⟩ := List.append_inj' h1 rfl
  obtain rfl : r = r1 := by simpa using h4
  have hr : r = asReply (m1.see now k) := by
    cases h3 with
    | as h _ => cases h; rfl
    | evict _ hs => cases hs
    | refuse _ hs => cases hs
  refine ⟨?_, fun hn => ?_⟩
  · have hp := part_all (part_refl m) hf h2
    cases hm : m1.see now k with
    | none => left; rw [hr, hm]; rfl
    | some x => right; rw [hr, hp.see hm, hm]
  · rw [← same_all (fun q hq => ⟨hf q hq, hn q hq⟩) h2]
    exact hr

end Verif.Low
