import Mathlib.Algebra.Order.BigOperators.Group.Finset
import Mathlib.Algebra.Order.Group.Multiset
import Mathlib.Algebra.BigOperators.Group.Finset.Basic
import Mathlib.Data.Nat.ModEq
import Mathlib.Tactic.Common
import Mathlib.Tactic.Abel
import Verif.Hashmap.Model

/-!
Table invariants and the loop lemmas of the Robin-Hood table.
-/

namespace Verif.Hashmap

open Function

variable {α : Type} [Inhabited α]

/-- What a bucket holds, as a multiset. -/
def bc (x : Bucket α) : Multiset (Bytes × α) := if x.dib = 0 then 0 else {x.ent}

/-- Everything a bucket array holds. -/
def cont (b : Nat → Bucket α) (n : Nat) : Multiset (Bytes × α) := ∑ j ∈ Finset.range n, bc (b j)

/-- The distance byte with cyclic index. -/
def D (b : Nat → Bucket α) (n j : Nat) : Nat := (b (j % n)).dib

/-- The Robin-Hood shape. -/
structure WF (c : Ctx) (b : Nat → Bucket α) (n : Nat) : Prop where
  step : ∀ j, D b n (j + 1) ≤ D b n j + 1
  home : ∀ j, j < n → (b j).dib ≠ 0 → ((b j).hash + (b j).dib) % n = (j + 1) % n
  hash : ∀ j, j < n → (b j).dib ≠ 0 → (b j).hash = c.hash48 (b j).ent.1
  byte : ∀ j, j < n → (b j).dib < 65536

/-- The carried bucket, about to be tried at position `i+1`. -/
structure Carry (c : Ctx) (b : Nat → Bucket α) (n i : Nat) (eb : Bucket α) : Prop where
  pos : eb.dib ≠ 0
  byte : eb.dib < 65536
  hash : eb.hash = c.hash48 eb.ent.1
  home : (eb.hash + eb.dib) % n = (i + 2) % n
  step : eb.dib ≤ D b n i + 1

theorem and_mask {k n : Nat} (hn : n = 2 ^ k) (x : Nat) : x &&& (n - 1) = x % n := by
  subst hn; exact Nat.and_two_pow_sub_one_eq_mod x k

theorem next_mask {k n : Nat} (hn : n = 2 ^ k) (x : Nat) : (x % n + 1) &&& (n - 1) = (x + 1) % n := by
  rw [and_mask hn, Nat.mod_add_mod]

theorem succ_mod_ne {n : Nat} (hn : 2 ≤ n) (j : Nat) : (j + 1) % n ≠ j % n := by
  intro h
  have h1 : j + 1 ≡ j + 0 [MOD n] := h
  have h2 := Nat.ModEq.add_left_cancel' j h1
  unfold Nat.ModEq at h2
  rw [Nat.mod_eq_of_lt (by omega : 1 < n)] at h2
  simp at h2

theorem succ_mod_inj {n i j : Nat} (h : (j + 1) % n = (i + 1) % n) : j % n = i % n :=
  Nat.ModEq.add_right_cancel' (n := n) 1 h

theorem mod_succ_congr {n i j : Nat} (h : j % n = i % n) : (j + 1) % n = (i + 1) % n := by
  rw [Nat.add_mod, h, ← Nat.add_mod]

theorem D_congr {b : Nat → Bucket α} {n i j : Nat} (h : i % n = j % n) : D b n i = D b n j := by
  unfold D; rw [h]

theorem D_update (b : Nat → Bucket α) (n i j : Nat) (x : Bucket α) :
    D (update b (i % n) x) n j = if j % n = i % n then x.dib else D b n j := by
  unfold D
  by_cases h : j % n = i % n
  · simp [h]
  · simp [h]

theorem chain {b : Nat → Bucket α} {n : Nat} (h : ∀ j, D b n (j + 1) ≤ D b n j + 1) (j m : Nat) :
    D b n (j + m) ≤ D b n j + m := by
  induction m with
  | zero => simp
  | succ m ih => have := h (j + m); rw [← Nat.add_assoc]; omega

/-! ### Contents -/

theorem cont_update (b : Nat → Bucket α) {n i : Nat} (hi : i < n) (x : Bucket α) :
    cont (update b i x) n + bc (b i) = cont b n + bc x := by
  unfold cont
  have hmem : i ∈ Finset.range n := Finset.mem_range.2 hi
  rw [← Finset.add_sum_erase _ _ hmem, ← Finset.add_sum_erase (Finset.range n) (fun j => bc (b j)) hmem]
  have : ∑ j ∈ (Finset.range n).erase i, bc (update b i x j) = ∑ j ∈ (Finset.range n).erase i, bc (b j) := by
    apply Finset.sum_congr rfl
    intro j hj
    rw [update_of_ne (Finset.ne_of_mem_erase hj)]
  rw [this, update_self]
  abel

theorem cont_update_congr (b : Nat → Bucket α) {n i : Nat} (hi : i < n) {x y : Bucket α} (h : bc x = bc y) :
    cont (update b i x) n = cont (update b i y) n := by
  have h1 := cont_update b hi x
  have h2 := cont_update b hi y
  rw [h, ← h2] at h1
  exact add_right_cancel h1

theorem mem_cont {b : Nat → Bucket α} {n : Nat} {e : Bytes × α} :
    e ∈ cont b n ↔ ∃ j, j < n ∧ (b j).dib ≠ 0 ∧ (b j).ent = e := by
  unfold cont
  rw [Multiset.mem_sum]
  constructor
  · rintro ⟨j, hj, he⟩
    unfold bc at he
    split at he
    · simp at he
    · exact ⟨j, Finset.mem_range.1 hj, by assumption, (Multiset.mem_singleton.1 he).symm⟩
  · rintro ⟨j, hj, hd, he⟩
    exact ⟨j, Finset.mem_range.2 hj, by simp [bc, hd, he]⟩

theorem bc_card (x : Bucket α) : (bc x).card = if x.dib = 0 then 0 else 1 := by
  unfold bc; split <;> simp

theorem exists_empty {b : Nat → Bucket α} {n : Nat} (h : (cont b n).card < n) :
    ∃ j, j < n ∧ (b j).dib = 0 := by
  by_contra hne
  push Not at hne
  have : (cont b n).card = n := by
    unfold cont
    rw [Multiset.card_sum]
    have : ∀ j ∈ Finset.range n, (bc (b j)).card = 1 := by
      intro j hj
      rw [bc_card, if_neg (hne j (Finset.mem_range.1 hj))]
    rw [Finset.sum_congr rfl this]
    simp
  omega

theorem exists_empty_from {b : Nat → Bucket α} {n : Nat} (h : (cont b n).card < n) (i : Nat) :
    ∃ t, t < n ∧ D b n (i + t) = 0 := by
  obtain ⟨j, hj, hd⟩ := exists_empty h
  have hn : 0 < n := by omega
  refine ⟨(j + n - i % n) % n, Nat.mod_lt _ hn, ?_⟩
  unfold D
  have : (i + (j + n - i % n) % n) % n = j := by
    have hlt := Nat.mod_lt i hn
    rw [Nat.add_mod, Nat.mod_mod, ← Nat.add_mod]
    have h1 : i + (j + n - i % n) = j + n * (i / n + 1) := by
      have := Nat.div_add_mod i n
      rw [Nat.mul_add]
      omega
    rw [h1, Nat.add_mul_mod_self_left, Nat.mod_eq_of_lt hj]
  rw [this]; exact hd

/-! ### Updating one bucket -/

theorem wf_update {c : Ctx} {b : Nat → Bucket α} {n i : Nat} {x : Bucket α} (hn : 2 ≤ n) (hw : WF c b n)
    (hh : x.dib ≠ 0 → x.hash = c.hash48 x.ent.1) (hm : x.dib ≠ 0 → (x.hash + x.dib) % n = (i + 2) % n)
    (hb : x.dib < 65536) (h1 : x.dib ≤ D b n i + 1) (h2 : D b n (i + 2) ≤ x.dib + 1) :
    WF c (update b ((i + 1) % n) x) n := by
  constructor
  · intro j
    rw [D_update, D_update]
    by_cases hj : (j + 1) % n = (i + 1) % n
    · rw [if_pos hj]
      have hji := succ_mod_inj hj
      have : j % n ≠ (i + 1) % n := by
        rw [hji]; exact fun h => succ_mod_ne hn i h.symm
      rw [if_neg this, D_congr hji]
      exact h1
    · rw [if_neg hj]
      by_cases hj2 : j % n = (i + 1) % n
      · rw [if_pos hj2, D_congr (mod_succ_congr hj2)]
        exact h2
      · rw [if_neg hj2]; exact hw.step j
  · intro j hj hd
    by_cases hji : j = (i + 1) % n
    · subst hji
      rw [update_self] at hd ⊢
      rw [hm hd, Nat.mod_add_mod]
    · rw [update_of_ne hji] at hd ⊢
      exact hw.home j hj hd
  · intro j hj hd
    by_cases hji : j = (i + 1) % n
    · subst hji
      rw [update_self] at hd ⊢
      exact hh hd
    · rw [update_of_ne hji] at hd ⊢
      exact hw.hash j hj hd
  · intro j hj
    by_cases hji : j = (i + 1) % n
    · subst hji
      rw [update_self]; exact hb
    · rw [update_of_ne hji]
      exact hw.byte j hj

theorem wf_empty (c : Ctx) (n : Nat) : WF c (fun _ => (emptyBucket : Bucket α)) n := by
  constructor <;> simp [D, emptyBucket]

theorem cont_empty (n : Nat) : cont (fun _ => (emptyBucket : Bucket α)) n = 0 := by
  unfold cont
  apply Finset.sum_eq_zero
  intro j _
  simp [bc, emptyBucket]

/-! ### Steps of the insertion loops -/

theorem bump_of_lt {x : Bucket α} (h : ¬ (x.dib + 1 ≥ 65536)) : x.bump = { x with dib := x.dib + 1 } := by
  unfold Bucket.bump
  rw [Nat.mod_eq_of_lt (by omega)]

theorem place_step {c : Ctx} {b : Nat → Bucket α} {n i : Nat} {eb : Bucket α} (hn : 2 ≤ n) (hw : WF c b n)
    (hc : Carry c b n i eb) (h0 : (b ((i + 1) % n)).dib = 0) :
    WF c (update b ((i + 1) % n) eb) n ∧ cont (update b ((i + 1) % n) eb) n = cont b n + {eb.ent} := by
  constructor
  · apply wf_update hn hw (fun _ => hc.hash) (fun _ => hc.home) hc.byte hc.step
    have := hw.step (i + 1)
    have h0' : D b n (i + 1) = 0 := h0
    show D b n (i + 1 + 1) ≤ _
    omega
  · have := cont_update b (Nat.mod_lt (i + 1) (by omega : n > 0)) eb
    rw [bc, if_pos h0, add_zero, bc, if_neg hc.pos] at this
    exact this

theorem swap_step {c : Ctx} {b : Nat → Bucket α} {n i : Nat} {eb : Bucket α} (hn : 2 ≤ n) (hw : WF c b n)
    (hc : Carry c b n i eb) (h0 : (b ((i + 1) % n)).dib ≠ 0) (hlt : (b ((i + 1) % n)).dib < eb.dib)
    (hov : ¬ ((b ((i + 1) % n)).dib + 1 ≥ 65536)) :
    WF c (update b ((i + 1) % n) eb) n ∧
    Carry c (update b ((i + 1) % n) eb) n (i + 1) (b ((i + 1) % n)).bump ∧
    cont (update b ((i + 1) % n) eb) n + {(b ((i + 1) % n)).bump.ent} = cont b n + {eb.ent} := by
  have hpos : n > 0 := by omega
  have hlt' := Nat.mod_lt (i + 1) hpos
  refine ⟨?_, ?_, ?_⟩
  · apply wf_update hn hw (fun _ => hc.hash) (fun _ => hc.home) hc.byte hc.step
    have := hw.step (i + 1)
    have h0' : D b n (i + 1) = (b ((i + 1) % n)).dib := rfl
    show D b n (i + 1 + 1) ≤ _
    omega
  · rw [bump_of_lt hov]
    constructor
    · simp
    · show _ + 1 < 65536; omega
    · exact hw.hash _ hlt' h0
    · have := hw.home _ hlt' h0
      simp only []
      rw [← Nat.add_assoc]
      have h2 := mod_succ_congr this
      rw [h2]
      rw [Nat.add_assoc, Nat.mod_add_mod]
    · simp only []
      rw [D_update, if_pos rfl]
      omega
  · have := cont_update b hlt' eb
    rw [bc, if_neg h0, bc, if_neg hc.pos] at this
    exact this

theorem keep_step {c : Ctx} {b : Nat → Bucket α} {n i : Nat} {eb : Bucket α}
    (hc : Carry c b n i eb) (hge : ¬ (b ((i + 1) % n)).dib < eb.dib) (hov : ¬ (eb.dib + 1 ≥ 65536)) :
    Carry c b n (i + 1) eb.bump := by
  rw [bump_of_lt hov]
  constructor
  · simp
  · show _ + 1 < 65536; omega
  · exact hc.hash
  · simp only []
    rw [← Nat.add_assoc]
    exact mod_succ_congr hc.home
  · have : D b n (i + 1) = (b ((i + 1) % n)).dib := rfl
    simp only []
    omega

/-! ### `placeLoop` -/

theorem placeLoop_ovf {mask fuel : Nat} {b : Nat → Bucket α} {ovf : Bool} {j : Nat} {eb : Bucket α}
    {b' : Nat → Bucket α} (h : placeLoop mask fuel b ovf j eb = some (b', false)) : ovf = false := by
  induction fuel generalizing b ovf j eb with
  | zero => simp [placeLoop] at h
  | succ fuel ih =>
    unfold placeLoop at h
    split at h
    · simp at h; exact h.2
    · split at h
      · have := ih h; simp at this; exact this.1
      · have := ih h; simp at this; exact this.1

theorem placeLoop_correct {c : Ctx} {n k : Nat} (hk : n = 2 ^ k) (hn : 2 ≤ n) {fuel : Nat}
    {b : Nat → Bucket α} {ovf : Bool} {i : Nat} {eb : Bucket α} {b' : Nat → Bucket α}
    (h : placeLoop (n - 1) fuel b ovf ((i + 1) % n) eb = some (b', false))
    (hw : WF c b n) (hc : Carry c b n i eb) :
    WF c b' n ∧ cont b' n = cont b n + {eb.ent} := by
  induction fuel generalizing b ovf i eb with
  | zero => simp [placeLoop] at h
  | succ fuel ih =>
    unfold placeLoop at h
    split at h
    · rename_i h0
      simp only [Option.some.injEq, Prod.mk.injEq] at h
      rw [← h.1]
      exact place_step hn hw hc h0
    · rename_i h0
      rw [next_mask hk] at h
      split at h
      · rename_i hlt
        have hov := placeLoop_ovf h
        simp only [Bool.or_eq_false_iff, decide_eq_false_iff_not] at hov
        obtain ⟨hw', hc', hcont⟩ := swap_step hn hw hc h0 hlt hov.2
        obtain ⟨hw2, hc2⟩ := ih h hw' hc'
        exact ⟨hw2, by rw [hc2, hcont]⟩
      · rename_i hge
        have hov := placeLoop_ovf h
        simp only [Bool.or_eq_false_iff, decide_eq_false_iff_not] at hov
        exact ih (eb := eb.bump) h hw (keep_step hc hge hov.2)

/-- The loop always stops when there is a free bucket, and occupies at most one more. -/
theorem placeLoop_stops {n k : Nat} (hk : n = 2 ^ k) {fuel t : Nat} {b : Nat → Bucket α} {ovf : Bool}
    {i : Nat} {eb : Bucket α} (ht : D b n (i + t) = 0) (hf : t < fuel) :
    ∃ b' o, placeLoop (n - 1) fuel b ovf (i % n) eb = some (b', o) ∧
      (cont b' n).card ≤ (cont b n).card + 1 := by
  have hpos : 0 < n := by rw [hk]; exact Nat.two_pow_pos k
  induction fuel generalizing b ovf i eb t with
  | zero => omega
  | succ fuel ih =>
    unfold placeLoop
    split
    · rename_i h0
      refine ⟨_, _, rfl, ?_⟩
      have := congrArg Multiset.card (cont_update b (Nat.mod_lt i hpos) eb)
      rw [Multiset.card_add, Multiset.card_add, bc_card, bc_card, if_pos h0] at this
      split at this <;> omega
    · rename_i h0
      rw [next_mask hk]
      have ht0 : t ≠ 0 := by
        rintro rfl
        exact h0 ht
      have hidx : i + 1 + (t - 1) = i + t := by omega
      split
      · rename_i hlt
        have := congrArg Multiset.card (cont_update b (Nat.mod_lt i hpos) eb)
        rw [Multiset.card_add, Multiset.card_add, bc_card, bc_card, if_neg h0, if_neg (by omega)] at this
        have hne : (i + t) % n ≠ i % n := by
          intro hh
          rw [D_congr hh] at ht
          exact h0 ht
        obtain ⟨b', o, hr, hc⟩ := ih (b := update b (i % n) eb) (i := i + 1) (t := t - 1)
          (ovf := ovf || decide ((b (i % n)).dib + 1 ≥ 65536)) (eb := (b (i % n)).bump)
          (by rw [hidx, D_update, if_neg hne]; exact ht) (by omega)
        exact ⟨b', o, hr, by omega⟩
      · exact ih (t := t - 1) (by rw [hidx]; exact ht) (by omega)

/-! ### `resize` -/

theorem resize_fold {c : Ctx} {n2 k : Nat} (hk : n2 = 2 ^ k) (hn : 2 ≤ n2) (src : Nat → Bucket α) (n : Nat)
    (ovf : Bool)
    (hsrc : ovf = false → ∀ j, j < n → (src j).dib ≠ 0 → (src j).hash = c.hash48 (src j).ent.1)
    (m : Nat) (hm : m ≤ n) (hcard : (cont src m).card ≤ n2) :
    ∃ b o, (List.range m).foldl (resizeStep n2 src) (some (fun _ => emptyBucket, ovf)) = some (b, o) ∧
      (cont b n2).card ≤ (cont src m).card ∧
      (o = false → ovf = false ∧ WF c b n2 ∧ cont b n2 = cont src m) := by
  have hpos : 0 < n2 := by omega
  induction m with
  | zero =>
    refine ⟨fun _ => emptyBucket, ovf, rfl, ?_, ?_⟩
    · rw [cont_empty]; simp
    · intro ho
      exact ⟨ho, wf_empty c n2, by rw [cont_empty]; simp [cont]⟩
  | succ m ih =>
    have hsplit : cont src (m + 1) = cont src m + bc (src m) := by
      unfold cont; rw [Finset.sum_range_succ]
    have hcs : (cont src (m + 1)).card = (cont src m).card + (if (src m).dib = 0 then 0 else 1) := by
      rw [hsplit, Multiset.card_add, bc_card]
    obtain ⟨b, o, hf, hle, hok⟩ := ih (by omega) (by omega)
    rw [List.range_succ, List.foldl_append, hf]
    simp only [List.foldl_cons, List.foldl_nil, resizeStep, Option.bind_some]
    by_cases h0 : (src m).dib = 0
    · rw [if_neg (by simpa using h0)]
      refine ⟨b, o, rfl, by omega, ?_⟩
      intro ho
      obtain ⟨h1, h2, h3⟩ := hok ho
      refine ⟨h1, h2, ?_⟩
      rw [hsplit, h3, bc, if_pos h0, add_zero]
    · rw [if_pos h0]
      rw [if_neg h0] at hcs
      obtain ⟨t, ht, hd⟩ := exists_empty_from (b := b) (n := n2) (by omega) ((src m).hash + n2)
      obtain ⟨b', o', hr, hle'⟩ := placeLoop_stops hk (fuel := n2 + 1) (ovf := o) (eb := { src m with dib := 1 }) hd (by omega)
      rw [Nat.add_mod_right] at hr
      rw [and_mask hk]
      refine ⟨b', o', hr, by omega, ?_⟩
      intro ho
      subst ho
      have ho2 := placeLoop_ovf hr
      obtain ⟨h1, h2, h3⟩ := hok ho2
      have hidx : (src m).hash % n2 = ((src m).hash + n2 - 1 + 1) % n2 := by
        rw [show (src m).hash + n2 - 1 + 1 = (src m).hash + n2 by omega, Nat.add_mod_right]
      rw [hidx] at hr
      obtain ⟨hw, hcc⟩ := placeLoop_correct (c := c) hk hn hr h2 ⟨by simp, by simp, hsrc h1 m (by omega) h0, by
        simp only []
        rw [show (src m).hash + n2 - 1 + 2 = (src m).hash + 1 + n2 by omega, Nat.add_mod_right], by simp⟩
      refine ⟨h1, hw, ?_⟩
      rw [hcc, h3, hsplit, bc, if_neg h0]

end Verif.Hashmap
