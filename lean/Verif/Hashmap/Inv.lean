import Mathlib.Tactic.Linarith
import Verif.Hashmap.Lemmas2

/-!
The invariant of the table and the effect of each table function on the contents.
-/

namespace Verif.Hashmap

open Function

variable {α : Type} [Inhabited α]

/-- Contents of a table. -/
def Tbl.cont (m : Tbl α) : Multiset (Bytes × α) := Hashmap.cont m.buckets m.nbuckets

/-- Invariant of a table, including what still holds after a distance byte has wrapped. -/
structure Inv (c : Ctx) (m : Tbl α) : Prop where
  pow : ∃ k, m.nbuckets = 2 ^ k
  ge : 16 ≤ m.nbuckets
  grow : m.growat = growAt m.nbuckets
  load : m.count ≤ m.growat
  card : m.cont.card ≤ m.count
  wf : m.ovf = false → WF c m.buckets m.nbuckets
  cnt : m.ovf = false → m.count = m.cont.card
  nodup : m.ovf = false → (m.cont.map Prod.fst).Nodup

theorem growAt_lt {n : Nat} (hn : 16 ≤ n) : growAt n < n := by
  unfold growAt
  omega

theorem growAt_two (n : Nat) : 2 * growAt n ≤ growAt (n * 2) := by
  unfold growAt
  omega

theorem growAt_pos {n : Nat} (hn : 16 ≤ n) : 9 ≤ growAt n := by
  unfold growAt
  omega

theorem inv_new0 {c : Ctx} : Inv c (new0 : Tbl α) := by
  constructor
  · exact ⟨4, rfl⟩
  · simp [new0, new]
  · rfl
  · simp [new0, new]
  · simp [new0, new, Tbl.cont, cont_empty]
  · intro _; exact wf_empty c _
  · intro _; simp [new0, new, Tbl.cont, cont_empty]
  · intro _; simp [new0, new, Tbl.cont, cont_empty]

theorem cont_new (n : Nat) : (new n : Tbl α).cont = 0 := cont_empty n

theorem Inv.lt {c : Ctx} {m : Tbl α} (h : Inv c m) : m.cont.card < m.nbuckets := by
  have h1 := growAt_lt h.ge
  have h2 := h.grow
  have h3 := h.load
  have h4 := h.card
  omega

/-- Effect of `resize`. -/
theorem resize_spec {c : Ctx} {m : Tbl α} {n2 k : Nat} (h : Inv c m) (hk : n2 = 2 ^ k)
    (hn : 16 ≤ n2) (hlt : m.count < growAt n2) :
    ∃ m', resize m n2 = some m' ∧ Inv c m' ∧ m'.count = m.count ∧ m'.nbuckets = n2 ∧ m'.count < m'.growat ∧
      (m'.ovf = false → m.ovf = false ∧ m'.cont = m.cont) := by
  have hc := h.card
  have h1 := growAt_lt hn
  obtain ⟨b, o, hf, hcard, hok⟩ := resize_fold (c := c) hk (by omega) m.buckets m.nbuckets m.ovf
    (fun ho => (h.wf ho).hash) m.nbuckets (le_refl _) (by unfold Tbl.cont at hc; omega)
  refine ⟨{ (new n2 : Tbl α) with buckets := b, ovf := o, count := m.count },
    by unfold resize; rw [show (new n2 : Tbl α).buckets = fun _ => emptyBucket from rfl, hf]; rfl,
    ?_, rfl, rfl, ?_, ?_⟩
  · constructor
    · exact ⟨k, hk⟩
    · exact hn
    · rfl
    · exact le_of_lt hlt
    · unfold Tbl.cont at hc ⊢
      simp only [new]
      omega
    · intro ho; exact (hok ho).2.1
    · intro ho
      obtain ⟨h1, _, h3⟩ := hok ho
      show m.count = (Hashmap.cont b n2).card
      rw [h3]; exact h.cnt h1
    · intro ho
      obtain ⟨h1, _, h3⟩ := hok ho
      show ((Hashmap.cont b n2).map Prod.fst).Nodup
      rw [h3]; exact h.nodup h1
  · exact hlt
  · intro ho
    obtain ⟨h1, _, h3⟩ := hok ho
    exact ⟨h1, h3⟩

/-- What an insertion does to the contents. -/
def InsEffect (e : Bytes × α) (old : Option (Bytes × α)) (before after : Multiset (Bytes × α)) : Prop :=
  match old with
  | none => (∀ x ∈ before, x.1 ≠ e.1) ∧ after = before + {e}
  | some o => o ∈ before ∧ o.1 = e.1 ∧ after + {o} = before + {e}

/-- The insertion proper (room is available). -/
theorem insert_core {c : Ctx} {m : Tbl α} {e : Bytes × α} (h : Inv c m) (hlt : m.count < m.growat) :
    ∃ m' old, insertLoop (m.nbuckets + 1) m (c.hash48 e.1 &&& m.mask) ⟨e, c.hash48 e.1, 1⟩ = some (m', old) ∧
      Inv c m' ∧ m'.nbuckets = m.nbuckets ∧ m'.growat = m.growat ∧
      (m'.count = if old = none then m.count + 1 else m.count) ∧
      (m'.ovf = false → m.ovf = false ∧ InsEffect e old m.cont m'.cont) := by
  obtain ⟨k, hk⟩ := h.pow
  have hlt' := h.lt
  have hn2 : 2 ≤ m.nbuckets := by have := h.ge; omega
  have hpos : 0 < m.nbuckets := by omega
  set n := m.nbuckets with hnb
  have hmask : c.hash48 e.1 &&& m.mask = c.hash48 e.1 % n := by
    unfold Tbl.mask; exact and_mask hk _
  rw [hmask]
  obtain ⟨t, ht, hd⟩ := exists_empty_from (b := m.buckets) (n := n) hlt' (c.hash48 e.1)
  obtain ⟨m', old, hr, g2, g3, g5, g6⟩ := insertLoop_stops hk (fuel := n + 1) (m := m)
    (eb := ⟨e, c.hash48 e.1, 1⟩) hnb.symm hd (by omega)
  have hfacts : m'.count = (if old = none then m.count + 1 else m.count) ∧
      (Hashmap.cont m'.buckets n).card ≤ (if old = none then (Hashmap.cont m.buckets n).card + 1 else (Hashmap.cont m.buckets n).card) := by
    cases old with
    | none => simpa using g5 rfl
    | some o => simpa using g6 o rfl
  have heff : m'.ovf = false → m.ovf = false ∧ InsEffect e old m.cont m'.cont ∧ WF c m'.buckets n := by
    intro ho
    have ho0 := insertLoop_ovf hr ho
    refine ⟨ho0, ?_⟩
    have hw := h.wf ho0
    rw [← hnb] at hw
    by_cases hex : ∃ p, p < n ∧ (m.buckets p).dib ≠ 0 ∧ (m.buckets p).ent.1 = e.1
    · obtain ⟨p, hp, hpd, hpk⟩ := hex
      have hph : (m.buckets p).hash = c.hash48 e.1 := by rw [hw.hash p hp hpd, hpk]
      obtain ⟨s, hne, hm, hpath⟩ := first_match hw hp hpd
      rw [hph, hpk] at hne hm
      rw [hph] at hpath
      have hsn : s < n := by
        by_contra hge
        have hall := hpath t (by omega)
        rw [hd] at hall
        omega
      have hq := hpath s (le_refl _)
      have hrep := insertLoop_replace hk (s := s) (fuel := n + 1) (i := c.hash48 e.1) (m := m)
        (eb := ⟨e, c.hash48 e.1, 1⟩) hnb.symm (by omega)
        (fun u hu => by have := hpath u hu; simp only []; omega) (by simp)
        (fun j => hw.byte _ (Nat.mod_lt _ hpos))
        (fun u hu hc => hne u hu ⟨hc.1.symm, hc.2.symm⟩) ⟨hm.1.symm, hm.2.symm⟩
      rw [hr] at hrep
      simp only [Option.some.injEq, Prod.mk.injEq] at hrep
      obtain ⟨rfl, rfl⟩ := hrep
      set q := (c.hash48 e.1 + s) % n with hqdef
      have hqlt : q < n := Nat.mod_lt _ hpos
      have hq0 : (m.buckets q).dib ≠ 0 := by
        have : D m.buckets n (c.hash48 e.1 + s) = (m.buckets q).dib := rfl
        omega
      refine ⟨⟨mem_cont.2 ⟨q, hqlt, hq0, rfl⟩, hm.2, ?_⟩, ?_⟩
      · have := cont_update m.buckets hqlt { m.buckets q with ent := e }
        rw [bc, if_neg hq0, bc, if_neg hq0] at this
        exact this
      · simp only []
        have hD : ∀ j, D (update m.buckets q { m.buckets q with ent := e }) n j = D m.buckets n j := by
          intro j
          rw [hqdef, D_update]
          split
          · rename_i hj; unfold D; rw [hj]
          · rfl
        constructor
        · intro j; rw [hD, hD]; exact hw.step j
        · intro j hj
          by_cases hjq : j = q
          · subst hjq; rw [update_self]; exact hw.home _ hj
          · rw [update_of_ne hjq]; exact hw.home _ hj
        · intro j hj hdj
          by_cases hjq : j = q
          · rw [hjq, update_self]; exact hm.1
          · rw [update_of_ne hjq] at hdj ⊢; exact hw.hash _ hj hdj
        · intro j hj
          by_cases hjq : j = q
          · subst hjq; rw [update_self]; exact hw.byte _ hj
          · rw [update_of_ne hjq]; exact hw.byte _ hj
    · push Not at hex
      have hnone : ∀ x ∈ m.cont, x.1 ≠ e.1 := by
        intro x hx
        obtain ⟨j, hj, hd, rfl⟩ := mem_cont.1 hx
        exact hex j hj hd
      have hidx : c.hash48 e.1 % n = (c.hash48 e.1 + n - 1 + 1) % n := by
        rw [show c.hash48 e.1 + n - 1 + 1 = c.hash48 e.1 + n by omega, Nat.add_mod_right]
      rw [hidx] at hr
      have hnd : ((Hashmap.cont m.buckets n + {e}).map Prod.fst).Nodup := by
        rw [Multiset.map_add, Multiset.nodup_add]
        refine ⟨h.nodup ho0, by simp, ?_⟩
        rw [Multiset.disjoint_left]
        intro a ha hb
        obtain ⟨x, hx, rfl⟩ := Multiset.mem_map.1 ha
        simp at hb
        exact hnone x hx hb
      obtain ⟨h1, b', h2, h3, h4⟩ := insertLoop_new (c := c) hk hn2 hnb.symm hr ho hw
        ⟨by simp, by simp, rfl, by
          simp only []
          rw [show c.hash48 e.1 + n - 1 + 2 = c.hash48 e.1 + 1 + n by omega, Nat.add_mod_right], by simp⟩ hnd
      subst h1
      rw [h2]
      exact ⟨⟨hnone, h4⟩, h3⟩
  refine ⟨m', old, hr, ?_, g2, g3, hfacts.1, fun ho => ⟨(heff ho).1, (heff ho).2.1⟩⟩
  have hm'n : m'.nbuckets = n := g2
  have hcl : m'.cont.card ≤ m'.count := by
    have hc := h.card
    unfold Tbl.cont at hc ⊢
    rw [hm'n, hfacts.1]
    have := hfacts.2
    split <;> simp_all <;> omega
  constructor
  · exact ⟨k, hm'n.trans hk⟩
  · rw [hm'n]; exact h.ge
  · rw [g3, hm'n]; exact h.grow
  · rw [hfacts.1, g3]; split <;> omega
  · exact hcl
  · intro ho; rw [hm'n]; exact (heff ho).2.2
  · intro ho
    obtain ⟨ho0, he, _⟩ := heff ho
    have := h.cnt ho0
    rw [hfacts.1, this]
    cases old with
    | none => rw [he.2]; simp
    | some o =>
      have := congrArg Multiset.card he.2.2
      simp at this
      simp [this]
  · intro ho
    obtain ⟨ho0, he, _⟩ := heff ho
    have hnd := h.nodup ho0
    cases old with
    | none =>
      rw [he.2, Multiset.map_add, Multiset.nodup_add]
      refine ⟨hnd, by simp, ?_⟩
      rw [Multiset.disjoint_left]
      intro a ha hb
      obtain ⟨x, hx, rfl⟩ := Multiset.mem_map.1 ha
      simp at hb
      exact he.1 x hx hb
    | some o =>
      have h3 := congrArg (Multiset.map Prod.fst) he.2.2
      rw [Multiset.map_add, Multiset.map_add, Multiset.map_singleton, Multiset.map_singleton, he.2.1] at h3
      have := add_right_cancel h3
      rw [this]; exact hnd

/-- Effect of `hashmap_set`. -/
theorem set_spec {c : Ctx} {m : Tbl α} {e : Bytes × α} (h : Inv c m) :
    ∃ m' old, set c m e = some (m', old) ∧ Inv c m' ∧ (m'.ovf = false → m.ovf = false) ∧
      m'.count = (if old = none then m.count + 1 else m.count) ∧
      (m'.ovf = false → InsEffect e old m.cont m'.cont) := by
  unfold set
  simp only []
  split
  · obtain ⟨k, hk⟩ := h.pow
    have hge := h.ge
    have h2 := growAt_two m.nbuckets
    have h3 := growAt_pos h.ge
    have h4 := h.load
    have h5 := h.grow
    obtain ⟨m1, hr1, hi1, hc1, hn1, hl1, ho1⟩ := resize_spec (n2 := m.nbuckets * 2) (k := k + 1) h
      (by rw [hk, pow_succ]) (by omega) (by omega)
    obtain ⟨m', old, hr, hi, _, _, hc, heff⟩ := insert_core (e := e) hi1 hl1
    refine ⟨m', old, ?_, hi, fun ho => (ho1 (heff ho).1).1, by rw [hc, hc1], ?_⟩
    · rw [hr1]; exact hr
    · intro ho
      rw [← (ho1 (heff ho).1).2]
      exact (heff ho).2
  · obtain ⟨m', old, hr, hi, _, _, hc, heff⟩ := insert_core (e := e) h (by omega)
    exact ⟨m', old, hr, hi, fun ho => (heff ho).1, hc, fun ho => (heff ho).2⟩

/-- Lookup always stops; a hit is a bucket with the key; a miss means the key is absent. -/
theorem getBucket_spec {c : Ctx} {m : Tbl α} (h : Inv c m) (key : Bytes) :
    ∃ r, getBucket c m key = some r ∧
      (∀ i, r = some i → i < m.nbuckets ∧ (m.buckets i).dib ≠ 0 ∧ (m.buckets i).ent.1 = key) ∧
      (r = none → m.ovf = false → ∀ x ∈ m.cont, x.1 ≠ key) := by
  obtain ⟨k, hk⟩ := h.pow
  have hlt' := h.lt
  have hpos : 0 < m.nbuckets := by omega
  have hmask : c.hash48 key &&& m.mask = c.hash48 key % m.nbuckets := by
    unfold Tbl.mask; exact and_mask hk _
  unfold getBucket
  rw [hmask]
  obtain ⟨t, ht, hd⟩ := exists_empty_from (b := m.buckets) (n := m.nbuckets) hlt' (c.hash48 key)
  obtain ⟨r, hr⟩ := getLoop_stops hk (key := key) (hash := c.hash48 key) (fuel := m.nbuckets + 1) (by omega) hd
  refine ⟨r, hr, ?_, ?_⟩
  · intro i hi
    rw [hi] at hr
    exact getLoop_sound hk hr
  · intro hnone ho x hx hkey
    have hw := h.wf ho
    obtain ⟨p, hp, hpd, rfl⟩ := mem_cont.1 hx
    have hph : (m.buckets p).hash = c.hash48 key := by rw [hw.hash p hp hpd, hkey]
    obtain ⟨s, hne, hm, hpath⟩ := first_match hw hp hpd
    rw [hph, hkey] at hne hm
    rw [hph] at hpath
    have hsn : s < m.nbuckets := by
      by_contra hge
      have hall := hpath t (by omega)
      rw [hd] at hall
      omega
    have := getLoop_found hk (key := key) (hash := c.hash48 key) (s := s) (fuel := m.nbuckets + 1)
      (i := c.hash48 key) (by omega)
      (fun u hu => ⟨by have := hpath u (by omega); omega, hne u hu⟩)
      (by have := hpath s (le_refl _); omega) hm
    rw [hr, hnone] at this
    simp at this

end Verif.Hashmap
