import Verif.Hashmap.Small

/-!
A table all of whose keys have the same hash, and what happens when it receives its 65536th key.
-/

namespace Verif.Hashmap

open Function

variable {α : Type} [Inhabited α]

theorem add_mod_inj {n h a b : Nat} (ha : a < n) (hb : b < n) (he : (h + a) % n = (h + b) % n) : a = b := by
  have h4 : a ≡ b [MOD n] := Nat.ModEq.add_left_cancel' h he
  unfold Nat.ModEq at h4
  rwa [Nat.mod_eq_of_lt ha, Nat.mod_eq_of_lt hb] at h4

/-- With one hash for all keys the entries occupy consecutive buckets from their common home. -/
theorem tower {c : Ctx} {b : Nat → Bucket α} {n h : Nat} (hw : WF c b n) (hlt : (cont b n).card < n)
    (hh : ∀ x ∈ cont b n, c.hash48 x.1 = h) (t : Nat) (ht : t < n) :
    D b n (h + t) = if t < (cont b n).card then t + 1 else 0 := by
  have hn : 0 < n := by omega
  have hocc : ∀ t, t < n → D b n (h + t) ≠ 0 → D b n (h + t) = t + 1 := by
    intro t ht hd
    have hj := Nat.mod_lt (h + t) hn
    have h1 := hw.home _ hj hd
    have h2 := hw.hash _ hj hd
    rw [hh _ (mem_cont.2 ⟨_, hj, hd, rfl⟩)] at h2
    rw [h2, show (b ((h + t) % n)).dib = D b n (h + t) from rfl, Nat.mod_add_mod, Nat.add_assoc] at h1
    have h3 := dib_le_card hw hlt (h + t)
    by_cases he : t + 1 = n
    · rw [he, Nat.add_mod_right] at h1
      have := add_mod_inj (b := 0) (by omega : D b n (h + t) < n) hn h1
      omega
    · exact add_mod_inj (by omega) (by omega) h1
  have hdown : ∀ t, t < n → ∀ u, u ≤ t → D b n (h + t) ≠ 0 → D b n (h + u) ≠ 0 := by
    intro t ht u hu hd h0
    have h1 := hocc t ht hd
    have h2 := chain hw.step (h + u) (t - u)
    rw [show h + u + (t - u) = h + t by omega, h1, h0] at h2
    omega
  split
  · rename_i htc
    apply hocc t ht
    intro h0
    -- all occupied buckets lie below `t`
    have hsub : ((Finset.range n).filter fun j => (b j).dib ≠ 0) ⊆ (Finset.range t).image fun u => (h + u) % n := by
      intro j hj
      obtain ⟨hj, hd⟩ := Finset.mem_filter.1 hj
      have hj := Finset.mem_range.1 hj
      have hu : (h + (j + n - h % n) % n) % n = j := by
        have hhn := Nat.mod_lt h hn
        rw [Nat.add_mod, Nat.mod_mod, ← Nat.add_mod]
        rw [Nat.add_mod, ← Nat.mod_add_mod, Nat.mod_mod, Nat.add_mod_mod, show h % n + (j + n - h % n) = j + n by omega,
          Nat.add_mod_right, Nat.mod_eq_of_lt hj]
      refine Finset.mem_image.2 ⟨(j + n - h % n) % n, ?_, hu⟩
      rw [Finset.mem_range]
      by_contra hge
      have hul := Nat.mod_lt (j + n - h % n) hn
      exact hdown _ hul t (by omega) (by unfold D; rw [hu]; exact hd) h0
    have := Finset.card_le_card hsub
    rw [← card_cont] at this
    have h2 := Finset.card_image_le (s := Finset.range t) (f := fun u => (h + u) % n)
    rw [Finset.card_range] at h2
    omega
  · rename_i htc
    by_contra hd
    have h1 := hocc t ht hd
    have h2 := dib_le_card hw hlt (h + t)
    omega

/-- The buckets of a table of 65535 keys with the same hash. -/
structure Full (b : Nat → Bucket α) (n h : Nat) (key : Bytes) : Prop where
  room : 65535 < n
  occ : ∀ t, t < 65535 → (b ((h + t) % n)).dib = t + 1 ∧ (b ((h + t) % n)).ent.1 ≠ key
  free : (b ((h + 65535) % n)).dib = 0

/-- The 65536th key is written with distance 0: its bucket counts as empty. -/
theorem insertLoop_lost {m : Tbl α} {k h : Nat} (hk : m.nbuckets = 2 ^ k) {e : Bytes × α} (hf : Full m.buckets m.nbuckets h e.1)
    (t : Nat) (ht : t ≤ 65535) (fuel : Nat) (hfu : 65535 - t < fuel) :
    ∃ o, insertLoop fuel m ((h + t) % m.nbuckets) ⟨e, h, (t + 1) % 65536⟩ =
      some ({ m with ovf := o, buckets := update m.buckets ((h + 65535) % m.nbuckets) ⟨e, h, 0⟩
                     count := m.count + 1 }, none) := by
  induction fuel generalizing t m with
  | zero => omega
  | succ f ih =>
    unfold insertLoop
    by_cases h255 : t = 65535
    · subst h255
      rw [if_pos hf.free]
      exact ⟨m.ovf, rfl⟩
    · obtain ⟨h1, h2⟩ := hf.occ t (by omega)
      simp only []
      rw [if_neg (by omega), if_neg (by rintro ⟨_, h3⟩; exact h2 h3.symm), if_neg (by rw [h1]; omega)]
      rw [show ((h + t) % m.nbuckets + 1) &&& m.mask = (h + (t + 1)) % m.nbuckets from by
        unfold Tbl.mask; rw [and_mask hk, Nat.mod_add_mod, Nat.add_assoc]]
      rw [show (⟨e, h, (t + 1) % 65536⟩ : Bucket α).bump = ⟨e, h, (t + 1 + 1) % 65536⟩ from by
        unfold Bucket.bump; simp only [Nat.mod_add_mod]]
      exact ih (m := { m with ovf := m.ovf || decide ((t + 1) % 65536 + 1 ≥ 65536) }) hk hf (t + 1) (by omega) (by omega)

theorem getLoop_lost {m : Tbl α} {k h : Nat} (hk : m.nbuckets = 2 ^ k) {key : Bytes} {e : Bytes × α}
    (hf : Full m.buckets m.nbuckets h key) {m' : Tbl α} (hn : m'.nbuckets = m.nbuckets)
    (hb : m'.buckets = update m.buckets ((h + 65535) % m.nbuckets) ⟨e, h, 0⟩)
    (t : Nat) (ht : t ≤ 65535) (fuel : Nat) (hfu : 65535 - t < fuel) :
    getLoop m' key h fuel ((h + t) % m.nbuckets) = some none := by
  induction fuel generalizing t with
  | zero => omega
  | succ f ih =>
    unfold getLoop
    rw [hb]
    by_cases h255 : t = 65535
    · subst h255
      rw [update_self]
      simp
    · have hne : (h + t) % m.nbuckets ≠ (h + 65535) % m.nbuckets := by
        intro he
        have := hf.room
        exact h255 (add_mod_inj (by omega) (by omega) he)
      rw [update_of_ne hne]
      obtain ⟨h1, h2⟩ := hf.occ t (by omega)
      rw [if_neg (by omega), if_neg (by rintro ⟨_, h3⟩; exact h2 h3)]
      rw [show ((h + t) % m.nbuckets + 1) &&& m'.mask = (h + (t + 1)) % m.nbuckets from by
        unfold Tbl.mask; rw [hn, and_mask hk, Nat.mod_add_mod, Nat.add_assoc]]
      exact ih (t + 1) (by omega) (by omega)

/-- Inserting the 65536th name with the same hash replaces nothing, and the name cannot be found. -/
theorem set_lost {c : Ctx} {m : Tbl α} (h : Inv c m) (ho : m.ovf = false) (hc : m.count = 65535) {e : Bytes × α}
    (hh : ∀ x ∈ m.cont, c.hash48 x.1 = c.hash48 e.1) (hne : ∀ x ∈ m.cont, x.1 ≠ e.1) :
    ∃ m', set c m e = some (m', none) ∧ getBucket c m' e.1 = some none ∧ m'.cont = m.cont := by
  have core : ∀ m0 : Tbl α, Inv c m0 → m0.ovf = false → m0.count = 65535 →
      (∀ x ∈ m0.cont, c.hash48 x.1 = c.hash48 e.1) → (∀ x ∈ m0.cont, x.1 ≠ e.1) → ∃ m',
      insertLoop (m0.nbuckets + 1) m0 (c.hash48 e.1 &&& m0.mask) ⟨e, c.hash48 e.1, 1⟩ = some (m', none) ∧
        getBucket c m' e.1 = some none ∧ m'.cont = m0.cont := by
    intro m0 h0 ho0 hc0 hh0 hne0
    obtain ⟨k, hk⟩ := h0.pow
    have hlt := h0.lt
    have hcard := h0.cnt ho0
    have htow := tower (h0.wf ho0) hlt hh0
    have hpos : 0 < m0.nbuckets := by omega
    have hcc : (cont m0.buckets m0.nbuckets).card = 65535 := by unfold Tbl.cont at hcard; omega
    have hf : Full m0.buckets m0.nbuckets (c.hash48 e.1) e.1 := by
      refine ⟨by unfold Tbl.cont at hlt; omega, ?_, ?_⟩
      · intro t ht
        have h1 := htow t (by unfold Tbl.cont at hlt; omega)
        rw [hcc, if_pos ht] at h1
        refine ⟨h1, hne0 _ (mem_cont.2 ⟨_, Nat.mod_lt _ hpos, ?_, rfl⟩)⟩
        have h2 : (m0.buckets ((c.hash48 e.1 + t) % m0.nbuckets)).dib = t + 1 := h1
        omega
      · have h1 := htow 65535 (by unfold Tbl.cont at hlt; omega)
        rw [hcc, if_neg (by omega)] at h1
        exact h1
    obtain ⟨o, hr⟩ := insertLoop_lost (m := m0) hk hf 0 (by omega)
      (m0.nbuckets + 1) (by have := hf.room; omega)
    rw [show c.hash48 e.1 &&& m0.mask = (c.hash48 e.1 + 0) % m0.nbuckets from and_mask hk _]
    refine ⟨_, by exact hr, ?_, ?_⟩
    · unfold getBucket
      simp only [Tbl.mask]
      rw [show c.hash48 e.1 &&& (m0.nbuckets - 1) = (c.hash48 e.1 + 0) % m0.nbuckets from and_mask hk _]
      exact getLoop_lost (m := m0) (e := e) hk hf (by rfl) (by rfl) 0 (by omega) (m0.nbuckets + 1) (by have := hf.room; omega)
    · have := cont_update m0.buckets (Nat.mod_lt (c.hash48 e.1 + 65535) hpos) ⟨e, c.hash48 e.1, 0⟩
      rw [bc, if_pos hf.free, bc, if_pos rfl, add_zero, add_zero] at this
      exact this
  unfold set
  simp only []
  split
  · obtain ⟨k, hk⟩ := h.pow
    have hge := h.ge
    have hlt : m.count < growAt (m.nbuckets * 2) := by
      have h1 := growAt_two m.nbuckets
      have h2 := h.load
      have h3 := h.grow
      have h4 := growAt_pos h.ge
      omega
    obtain ⟨m1, hr1, hi1, hc1, _, _, hcont1⟩ := resize_spec h (n2 := m.nbuckets * 2) (k := k + 1)
      (by rw [hk, pow_succ]) (by omega) hlt
    have ho1 := resize_small h (n2 := m.nbuckets * 2) (k := k + 1) (by rw [hk, pow_succ]) (by omega) hlt ho (by omega) hr1
    have hcc := (hcont1 ho1).2
    rw [hr1]
    rw [← hcc] at hh hne ⊢
    exact core m1 hi1 ho1 (by omega) hh hne
  · exact core m h ho hc hh hne

end Verif.Hashmap
