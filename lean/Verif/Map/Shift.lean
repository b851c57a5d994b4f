import Verif.Map.Inv

/-!
Where `delbkt` moves entries to.
-/

namespace Verif.Map

open Function

theorem add_mod_ne {n h v : Nat} (hv : 0 < v) (hvn : v < n) : (h + v) % n ≠ h % n := by
  intro e
  have h1 : h + v ≡ h + 0 [MOD n] := e
  have h2 := Nat.ModEq.add_left_cancel' h h1
  unfold Nat.ModEq at h2
  rw [Nat.mod_eq_of_lt hvn] at h2
  simp at h2
  omega

theorem delLoop_shift {n k : Nat} (hk : n = 2 ^ k) {fuel t : Nat} {b b' : Nat → Bucket} {h : Nat}
    (hr : delLoop (n - 1) fuel b (h % n) = some b') (ht : D b n (h + 1 + t) = 0) (htn : t + 2 ≤ n) (p : Nat) :
    b' p = b p ∨ (b' p).dib = 0 ∨
      ∃ u, u < t ∧ p = (h + u) % n ∧ 2 ≤ (b ((h + u + 1) % n)).dib ∧
        b' p = { b ((h + u + 1) % n) with dib := (b ((h + u + 1) % n)).dib - 1 } := by
  induction fuel generalizing b h t with
  | zero => simp [delLoop] at hr
  | succ f ih =>
    unfold delLoop at hr
    simp only [next_mask hk] at hr
    split at hr
    · simp only [Option.some.injEq] at hr
      rw [← hr]
      by_cases hp : p = h % n
      · right; left; rw [hp, update_self]
      · left; rw [update_of_ne hp]
    · rename_i hgt
      have ht0 : t ≠ 0 := by
        rintro rfl
        have : (b ((h + 1) % n)).dib = 0 := ht
        omega
      have hnz : (h + 1 + t) % n ≠ h % n := by
        rw [Nat.add_assoc]; exact add_mod_ne (by omega) (by omega)
      have := ih (t := t - 1) hr (by
        rw [show h + 1 + 1 + (t - 1) = h + 1 + t by omega, D_update, if_neg hnz]; exact ht) (by omega)
      rcases this with h1 | h1 | ⟨u, hu, hpu, hge, heq⟩
      · by_cases hp : p = h % n
        · right; right
          refine ⟨0, by omega, by simpa using hp, by simp only [Nat.add_zero]; omega, ?_⟩
          rw [h1, hp, update_self, Nat.add_zero]
        · left; rw [h1, update_of_ne hp]
      · right; left; exact h1
      · right; right
        have hne : (h + 1 + u + 1) % n ≠ h % n := by
          rw [show h + 1 + u + 1 = h + (u + 2) by omega]; exact add_mod_ne (by omega) (by omega)
        rw [update_of_ne hne] at hge heq
        rw [show h + 1 + u + 1 = h + (u + 1) + 1 by omega] at hge heq
        exact ⟨u + 1, by omega, by rw [hpu]; congr 1; omega, hge, heq⟩

/-- Where the entries of the buckets are after `delbkt` at `i`: those before `i` were before `i`; and
if bucket 0 holds nothing that wrapped around, those from `i` on were behind `i`. -/
theorem delbkt_moves {c : Ctx} {m m' : Tbl} (hv : c.Valid) (h : Inv c m) {i : Nat} (hi : i < m.nbuckets)
    (hd : (m.buckets i).dib ≠ 0) (hr : delbkt m i = some m') :
    (∀ j, j < i → (m'.buckets j).dib ≠ 0 → ∃ j', j' < i ∧ (m.buckets j').dib ≠ 0 ∧
      (m'.buckets j).ent = (m.buckets j').ent) ∧
    ((m.buckets 0).dib ≤ 1 → m.ovf = false → (m'.buckets 0).dib ≤ 1 ∧
      ∀ j, i ≤ j → j < m.nbuckets → (m'.buckets j).dib ≠ 0 → ∃ j', i < j' ∧ j' < m.nbuckets ∧ (m.buckets j').dib ≠ 0 ∧
        (m'.buckets j).ent = (m.buckets j').ent) := by
  obtain ⟨k, hk⟩ := h.pow
  have hlt' := h.lt hv
  have hge := h.ge
  have hpos : 0 < m.nbuckets := by omega
  have himod : i % m.nbuckets = i := Nat.mod_eq_of_lt hi
  obtain ⟨t, ht, hdt⟩ := exists_empty_from (b := m.buckets) (n := m.nbuckets) hlt' (i + 1)
  have hne : (i + 1 + t) % m.nbuckets ≠ i % m.nbuckets := by
    intro e
    rw [D_congr e] at hdt
    unfold D at hdt
    rw [himod] at hdt
    exact hd hdt
  have htn : t + 2 ≤ m.nbuckets := by
    by_contra hc
    have : t = m.nbuckets - 1 := by omega
    apply hne
    rw [this, show i + 1 + (m.nbuckets - 1) = i + m.nbuckets by omega, Nat.add_mod_right]
  unfold delbkt at hr
  set b1 := update m.buckets i { m.buckets i with dib := 0 } with hb1
  have hdt' : D b1 m.nbuckets (i + 1 + t) = 0 := by
    have : b1 = update m.buckets (i % m.nbuckets) { m.buckets i with dib := 0 } := by rw [hb1, himod]
    rw [this, D_update, if_neg hne]
    exact hdt
  rw [Option.map_eq_some_iff] at hr
  obtain ⟨b', hr, rfl⟩ := hr
  rw [show m.mask = m.nbuckets - 1 from rfl] at hr
  have hsh := fun p => delLoop_shift hk (h := i) (t := t) (b := b1) (b' := b') (by rw [himod]; exact hr) hdt' htn p
  have hb1i : (b1 i).dib = 0 := by rw [hb1, update_self]
  have hb1n : ∀ j, j ≠ i → b1 j = m.buckets j := fun j hj => by rw [hb1, update_of_ne hj]
  simp only []
  refine ⟨?_, ?_⟩
  · intro j hj hdj
    rcases hsh j with h1 | h1 | ⟨u, hu, hpu, _, heq⟩
    · rw [h1, hb1n j (by omega)] at hdj ⊢
      exact ⟨j, hj, hdj, rfl⟩
    · exact absurd h1 hdj
    · have hw : m.nbuckets ≤ i + u := by
        by_contra hc
        rw [Nat.mod_eq_of_lt (by omega)] at hpu
        omega
      have hj2 : j = i + u - m.nbuckets := by
        rw [hpu, Nat.mod_eq_sub_mod hw, Nat.mod_eq_of_lt (by omega)]
      have hs2 : (i + u + 1) % m.nbuckets = i + u + 1 - m.nbuckets := by
        rw [Nat.mod_eq_sub_mod (by omega), Nat.mod_eq_of_lt (by omega)]
      rw [hs2, hb1n _ (by omega)] at heq
      refine ⟨i + u + 1 - m.nbuckets, by omega, ?_, by rw [heq]⟩
      intro h0
      rw [heq] at hdj
      simp only [] at hdj
      omega
  · intro h0 hov
    have hw := h.wf hov
    refine ⟨?_, ?_⟩
    · rcases hsh 0 with h1 | h1 | ⟨u, hu, hpu, hge2, heq⟩
      · rw [h1]
        by_cases hi0 : (0 : Nat) = i
        · rw [hi0]; omega
        · rw [hb1n 0 hi0]; exact h0
      · omega
      · have hsrc : (i + u + 1) % m.nbuckets = 1 := by
          rw [Nat.add_mod, ← hpu, Nat.zero_add, Nat.mod_mod, Nat.mod_eq_of_lt (by omega)]
        rw [hsrc] at hge2 heq
        by_cases hi1 : (1 : Nat) = i
        · rw [hi1] at hge2; omega
        · have hst := hw.step 0
          unfold D at hst
          rw [Nat.mod_eq_of_lt (by omega : 0 + 1 < m.nbuckets), Nat.zero_mod] at hst
          rw [heq, hb1n 1 hi1]
          simp only []
          rw [Nat.zero_add] at hst
          omega
    · intro j hij hjn hdj
      rcases hsh j with h1 | h1 | ⟨u, hu, hpu, hge2, heq⟩
      · by_cases hji : j = i
        · rw [h1, hji] at hdj; omega
        · rw [h1, hb1n j hji] at hdj ⊢
          exact ⟨j, by omega, hjn, hdj, rfl⟩
      · exact absurd h1 hdj
      · have hw2 : i + u < m.nbuckets := by
          by_contra hc
          rw [Nat.mod_eq_sub_mod (by omega), Nat.mod_eq_of_lt (by omega)] at hpu
          omega
        rw [Nat.mod_eq_of_lt hw2] at hpu
        by_cases hend : i + u + 1 = m.nbuckets
        · rw [hend, Nat.mod_self] at hge2
          by_cases hi0 : (0 : Nat) = i
          · omega
          · rw [hb1n 0 hi0] at hge2; omega
        · rw [Nat.mod_eq_of_lt (by omega), hb1n _ (by omega)] at hge2 heq
          exact ⟨i + u + 1, by omega, by omega, by omega, by rw [heq]⟩

end Verif.Map
