import Verif.Hashmap.Inv
import Mathlib.Algebra.BigOperators.Group.Finset.Basic
import Mathlib.Tactic.Ring

/-!
Probe distances cannot wrap while a table holds few entries.
-/

namespace Verif.Hashmap

open Function

variable {α : Type} [Inhabited α]

theorem card_cont (b : Nat → Bucket α) (n : Nat) :
    (cont b n).card = ((Finset.range n).filter fun j => (b j).dib ≠ 0).card := by
  unfold cont
  rw [Multiset.card_sum, Finset.card_eq_sum_ones, Finset.sum_filter]
  apply Finset.sum_congr rfl
  intro j _
  rw [bc_card]
  by_cases h : (b j).dib = 0 <;> simp [h]

/-- Every probe distance is at most the number of entries. -/
theorem dib_le_card {c : Ctx} {b : Nat → Bucket α} {n : Nat} (hw : WF c b n) (hlt : (cont b n).card < n) (j : Nat) :
    D b n j ≤ (cont b n).card := by
  have hn : 0 < n := by omega
  -- buckets before `j` are occupied
  have hocc : ∀ t, t < D b n j → t < n → D b n (j + n - t) ≠ 0 := by
    intro t ht htn h0
    have := chain hw.step (j + n - t) t
    rw [show j + n - t + t = j + n by omega, D_congr (Nat.add_mod_right j n), h0] at this
    omega
  by_contra hc
  push Not at hc
  -- the first card+1 of them are different buckets
  have hinj : Set.InjOn (fun t => (j + n - t) % n) (Finset.range ((cont b n).card + 1)) := by
    intro t1 h1 t2 h2 he
    simp only [Finset.coe_range, Set.mem_Iio] at h1 h2
    simp only [] at he
    rcases Nat.lt_trichotomy t1 t2 with h | h | h
    · exfalso
      have e2 : j + n - t1 = (j + n - t2) + (t2 - t1) := by omega
      rw [e2] at he
      have h3 : (j + n - t2) + (t2 - t1) ≡ (j + n - t2) + 0 [MOD n] := he
      have h4 := Nat.ModEq.add_left_cancel' _ h3
      unfold Nat.ModEq at h4
      rw [Nat.mod_eq_of_lt (by omega), Nat.zero_mod] at h4
      omega
    · exact h
    · exfalso
      have e2 : j + n - t2 = (j + n - t1) + (t1 - t2) := by omega
      rw [e2] at he
      have h3 : (j + n - t1) + 0 ≡ (j + n - t1) + (t1 - t2) [MOD n] := he
      have h4 := Nat.ModEq.add_left_cancel' _ h3
      unfold Nat.ModEq at h4
      rw [Nat.mod_eq_of_lt (by omega : t1 - t2 < n), Nat.zero_mod] at h4
      omega
  have hsub : (Finset.range ((cont b n).card + 1)).image (fun t => (j + n - t) % n) ⊆
      (Finset.range n).filter fun j => (b j).dib ≠ 0 := by
    intro x hx
    obtain ⟨t, ht, rfl⟩ := Finset.mem_image.1 hx
    have ht := Finset.mem_range.1 ht
    simp only [Finset.mem_filter, Finset.mem_range]
    exact ⟨Nat.mod_lt _ hn, hocc t (by omega) (by omega)⟩
  have := Finset.card_le_card hsub
  rw [Finset.card_image_of_injOn hinj, Finset.card_range, ← card_cont] at this
  omega

theorem placeLoop_small {c : Ctx} {n k : Nat} (hk : n = 2 ^ k) (hn : 2 ≤ n) {fuel : Nat}
    {b : Nat → Bucket α} {i : Nat} {eb : Bucket α} {b' : Nat → Bucket α} {o : Bool}
    (h : placeLoop (n - 1) fuel b false ((i + 1) % n) eb = some (b', o))
    (hw : WF c b n) (hc : Carry c b n i eb) (hcard : (cont b n).card ≤ 65534) (hlt : (cont b n).card < n) : o = false := by
  induction fuel generalizing b i eb with
  | zero => simp [placeLoop] at h
  | succ fuel ih =>
    unfold placeLoop at h
    have hd := dib_le_card hw hlt (i + 1)
    have hdd : D b n (i + 1) = (b ((i + 1) % n)).dib := rfl
    split at h
    · simp only [Option.some.injEq, Prod.mk.injEq] at h
      exact h.2.symm
    · rename_i h0
      rw [next_mask hk] at h
      split at h
      · rename_i hlt'
        have hov : ¬ ((b ((i + 1) % n)).dib + 1 ≥ 65536) := by omega
        obtain ⟨hw', hc', hcont⟩ := swap_step hn hw hc h0 hlt' hov
        have hcc := congrArg Multiset.card hcont
        simp only [Multiset.card_add, Multiset.card_singleton] at hcc
        simp only [hov, decide_false, Bool.or_false] at h
        exact ih h hw' hc' (by omega) (by omega)
      · rename_i hge
        have hov : ¬ (eb.dib + 1 ≥ 65536) := by omega
        simp only [hov, decide_false, Bool.or_false] at h
        exact ih (eb := eb.bump) h hw (keep_step hc hge hov) hcard hlt

theorem insertLoop_small {c : Ctx} {n k : Nat} (hk : n = 2 ^ k) (hn : 2 ≤ n) {fuel : Nat} {m m' : Tbl α}
    {i : Nat} {eb : Bucket α} {old : Option (Bytes × α)} (hnb : m.nbuckets = n)
    (h : insertLoop fuel m ((i + 1) % n) eb = some (m', old)) (ho : m.ovf = false)
    (hw : WF c m.buckets n) (hc : Carry c m.buckets n i eb) (hcard : (cont m.buckets n).card ≤ 65534)
    (hlt : (cont m.buckets n).card < n) : m'.ovf = false := by
  induction fuel generalizing m i eb with
  | zero => simp [insertLoop] at h
  | succ f ih =>
    unfold insertLoop at h
    simp only [Tbl.mask] at h
    rw [show ((i + 1) % n + 1) &&& (m.nbuckets - 1) = (i + 1 + 1) % n from by
      rw [hnb, next_mask hk]] at h
    have hd := dib_le_card hw hlt (i + 1)
    have hdd : D m.buckets n (i + 1) = (m.buckets ((i + 1) % n)).dib := rfl
    split at h
    · simp at h; rw [← h.1]; exact ho
    · rename_i h0
      split at h
      · simp at h; rw [← h.1]; exact ho
      · split at h
        · rename_i hlt'
          have hov : ¬ ((m.buckets ((i + 1) % n)).dib + 1 ≥ 65536) := by omega
          obtain ⟨hw', hc', hcont⟩ := swap_step hn hw hc h0 hlt' hov
          have hcc := congrArg Multiset.card hcont
          simp only [Multiset.card_add, Multiset.card_singleton] at hcc
          refine ih (i := i + 1) (by exact hnb) h ?_ hw' hc' (by simp only []; omega) (by simp only []; omega)
          simp [ho]
          omega
        · rename_i hge
          have hov : ¬ (eb.dib + 1 ≥ 65536) := by omega
          refine ih (i := i + 1) (by exact hnb) h ?_ hw (keep_step hc hge hov) hcard hlt
          simp [ho]
          omega

theorem carry_start {c : Ctx} {b : Nat → Bucket α} {n : Nat} (hn : 2 ≤ n) (e : Bytes × α) {h : Nat} (hh : h = c.hash48 e.1) :
    Carry c b n (h + n - 1) ⟨e, h, 1⟩ :=
  ⟨by simp, by simp, hh, by
    simp only []
    rw [show h + n - 1 + 2 = h + 1 + n by omega, Nat.add_mod_right], by simp⟩

theorem start_idx {n h : Nat} (hn : 2 ≤ n) : h % n = (h + n - 1 + 1) % n := by
  rw [show h + n - 1 + 1 = h + n by omega, Nat.add_mod_right]

theorem resize_fold_small {c : Ctx} {n2 k : Nat} (hk : n2 = 2 ^ k) (hn : 2 ≤ n2) (src : Nat → Bucket α) (n : Nat)
    (hsrc : ∀ j, j < n → (src j).dib ≠ 0 → (src j).hash = c.hash48 (src j).ent.1)
    (m : Nat) (hm : m ≤ n) (hcard : (cont src m).card ≤ n2) (hs : (cont src m).card ≤ 65535) :
    ∃ b, (List.range m).foldl (resizeStep n2 src) (some (fun _ => emptyBucket, false)) = some (b, false) := by
  induction m with
  | zero => exact ⟨_, rfl⟩
  | succ m ih =>
    have hsplit : cont src (m + 1) = cont src m + bc (src m) := by
      unfold cont; rw [Finset.sum_range_succ]
    have hcs : (cont src (m + 1)).card = (cont src m).card + (if (src m).dib = 0 then 0 else 1) := by
      rw [hsplit, Multiset.card_add, bc_card]
    obtain ⟨b, hf⟩ := ih (by omega) (by omega) (by omega)
    obtain ⟨b2, o2, hf2, hle2, hok2⟩ := resize_fold (c := c) hk hn src n false (fun _ => hsrc) m (by omega) (by omega)
    rw [hf] at hf2
    simp only [Option.some.injEq, Prod.mk.injEq] at hf2
    obtain ⟨rfl, rfl⟩ := hf2
    obtain ⟨_, hw, hcc⟩ := hok2 rfl
    rw [List.range_succ, List.foldl_append, hf]
    simp only [List.foldl_cons, List.foldl_nil, resizeStep, Option.bind_some]
    by_cases h0 : (src m).dib = 0
    · rw [if_neg (by simpa using h0)]
      exact ⟨b, rfl⟩
    · rw [if_pos h0]
      rw [if_neg h0] at hcs
      obtain ⟨t, ht, hd⟩ := exists_empty_from (b := b) (n := n2) (by omega) ((src m).hash + n2)
      obtain ⟨b', o', hr, hle'⟩ := placeLoop_stops hk (fuel := n2 + 1) (ovf := false) (eb := { src m with dib := 1 }) hd (by omega)
      rw [Nat.add_mod_right] at hr
      rw [and_mask hk]
      have hr' := hr
      rw [start_idx hn] at hr'
      have := placeLoop_small (c := c) hk hn hr' hw (carry_start hn _ (hsrc m (by omega) h0)) (by omega) (by omega)
      subst this
      exact ⟨b', hr⟩

theorem resize_small {c : Ctx} {m m' : Tbl α} {n2 k : Nat} (h : Inv c m) (hk : n2 = 2 ^ k)
    (hn : 16 ≤ n2) (hlt : m.count < growAt n2) (ho : m.ovf = false) (hs : m.count ≤ 65535)
    (hr : resize m n2 = some m') : m'.ovf = false := by
  have hc := h.card
  have h1 := growAt_lt hn
  obtain ⟨b, hf⟩ := resize_fold_small (c := c) hk (by omega) m.buckets m.nbuckets
    (h.wf ho).hash m.nbuckets (le_refl _) (by unfold Tbl.cont at hc; omega) (by unfold Tbl.cont at hc; omega)
  unfold resize at hr
  rw [show (new n2 : Tbl α).buckets = fun _ => emptyBucket from rfl, ho, hf] at hr
  simp at hr
  rw [← hr]

/-- Inserting into a table of at most 65534 items never makes a distance wrap. -/
theorem set_small {c : Ctx} {m m' : Tbl α} {e : Bytes × α} {r : Option (Bytes × α)}
    (h : Inv c m) (ho : m.ovf = false) (hs : m.count ≤ 65534) (hr : set c m e = some (m', r)) :
    m'.ovf = false := by
  have core : ∀ m0 : Tbl α, Inv c m0 → m0.ovf = false → m0.count ≤ 65534 → ∀ m' r,
      insertLoop (m0.nbuckets + 1) m0 (c.hash48 e.1 &&& m0.mask) ⟨e, c.hash48 e.1, 1⟩ = some (m', r) → m'.ovf = false := by
    intro m0 h0 ho0 hs0 m' r hr
    obtain ⟨k, hk⟩ := h0.pow
    have hn : 2 ≤ m0.nbuckets := by have := h0.ge; omega
    rw [show c.hash48 e.1 &&& m0.mask = c.hash48 e.1 % m0.nbuckets from and_mask hk _, start_idx hn] at hr
    have hc := h0.card
    exact insertLoop_small (c := c) hk hn rfl hr ho0
      (h0.wf ho0) (carry_start hn e rfl) (by unfold Tbl.cont at hc; omega) h0.lt
  unfold set at hr
  simp only [] at hr
  split at hr
  · obtain ⟨k, hk⟩ := h.pow
    have hge := h.ge
    have hlt : m.count < growAt (m.nbuckets * 2) := by
      have h1 := growAt_two m.nbuckets
      have h2 := h.load
      have h3 := h.grow
      have h4 := growAt_pos h.ge
      omega
    obtain ⟨m1, hr1, hi1, hc1, _, _, _⟩ := resize_spec h (n2 := m.nbuckets * 2) (k := k + 1)
      (by rw [hk, pow_succ]) (by omega) hlt
    have ho1 := resize_small h (n2 := m.nbuckets * 2) (k := k + 1) (by rw [hk, pow_succ]) (by omega) hlt ho (by omega) hr1
    rw [hr1] at hr
    exact core m1 hi1 ho1 (by omega) m' r hr
  · exact core m h ho hs m' r hr

/-- Replacing an item never makes a distance wrap. -/
theorem set_present {c : Ctx} {m m' : Tbl α} {e : Bytes × α} {r : Option (Bytes × α)}
    (h : Inv c m) (ho : m.ovf = false) (hs : m.count ≤ 65535) (hex : ∃ x ∈ m.cont, x.1 = e.1) (hr : set c m e = some (m', r)) :
    m'.ovf = false := by
  have core : ∀ m0 : Tbl α, Inv c m0 → m0.ovf = false → (∃ x ∈ m0.cont, x.1 = e.1) → ∀ m' r,
      insertLoop (m0.nbuckets + 1) m0 (c.hash48 e.1 &&& m0.mask) ⟨e, c.hash48 e.1, 1⟩ = some (m', r) → m'.ovf = false := by
    intro m0 h0 ho0 hex m' r hr
    obtain ⟨k, hk⟩ := h0.pow
    have hlt := h0.lt
    have hpos : 0 < m0.nbuckets := by omega
    have hw := h0.wf ho0
    obtain ⟨x, hx, hxe⟩ := hex
    obtain ⟨p, hp, hpd, rfl⟩ := mem_cont.1 hx
    have hph : (m0.buckets p).hash = c.hash48 e.1 := by rw [hw.hash p hp hpd, hxe]
    obtain ⟨s, hne, hm, hpath⟩ := first_match hw hp hpd
    rw [hph, hxe] at hne hm
    rw [hph] at hpath
    obtain ⟨t, ht, hd⟩ := exists_empty_from (b := m0.buckets) (n := m0.nbuckets) hlt (c.hash48 e.1)
    have hsn : s < m0.nbuckets := by
      by_contra hge
      have hall := hpath t (by omega)
      rw [hd] at hall
      omega
    have hrep := insertLoop_replace hk (s := s) (fuel := m0.nbuckets + 1) (i := c.hash48 e.1) (m := m0)
      (eb := ⟨e, c.hash48 e.1, 1⟩) rfl (by omega)
      (fun u hu => by have := hpath u hu; simp only []; omega) (by simp)
      (fun j => hw.byte _ (Nat.mod_lt _ hpos))
      (fun u hu hc => hne u hu ⟨hc.1.symm, hc.2.symm⟩) ⟨hm.1.symm, hm.2.symm⟩
    rw [show c.hash48 e.1 &&& m0.mask = c.hash48 e.1 % m0.nbuckets from and_mask hk _, hrep] at hr
    simp only [Option.some.injEq, Prod.mk.injEq] at hr
    rw [← hr.1]; exact ho0
  unfold set at hr
  simp only [] at hr
  split at hr
  · obtain ⟨k, hk⟩ := h.pow
    have hge := h.ge
    have hlt : m.count < growAt (m.nbuckets * 2) := by
      have h1 := growAt_two m.nbuckets
      have h2 := h.load
      have h3 := h.grow
      have h4 := growAt_pos h.ge
      omega
    obtain ⟨m1, hr1, hi1, hc1, _, _, hcont⟩ := resize_spec h (n2 := m.nbuckets * 2) (k := k + 1)
      (by rw [hk, pow_succ]) (by omega) hlt
    have ho1 := resize_small h (n2 := m.nbuckets * 2) (k := k + 1) (by rw [hk, pow_succ]) (by omega) hlt ho (by omega) hr1
    rw [hr1] at hr
    exact core m1 hi1 ho1 (by rw [(hcont ho1).2]; exact hex) m' r hr
  · exact core m h ho hex m' r hr

end Verif.Hashmap
