import Mathlib.Tactic.Linarith
import Verif.Map.Lemmas2

/-!
The invariant of the table and the effect of each table function on the contents.
-/

namespace Verif.Map

open Function

/-- The load factor after `opts_to_ctx`. -/
def Ctx.Valid (c : Ctx) : Prop := 55 ≤ c.lf ∧ c.lf ≤ 95

theorem clampLf_valid (x : Int) : 55 ≤ clampLf x ∧ clampLf x ≤ 95 := by
  unfold clampLf
  split
  · omega
  · split
    · omega
    · split <;> omega

/-- Contents of a table. -/
def Tbl.cont (m : Tbl) : Multiset Ent := Map.cont m.buckets m.nbuckets

/-- Invariant of a table, including what still holds after a distance byte has wrapped. -/
structure Inv (c : Ctx) (m : Tbl) : Prop where
  pow : ∃ k, m.nbuckets = 2 ^ k
  cap : m.cap = 64
  ge : 64 ≤ m.nbuckets
  grow : m.growat = growAt c m.nbuckets
  shrink : m.shrinkat = shrinkAt m.nbuckets
  load : m.count ≤ m.growat
  card : m.cont.card ≤ m.count
  wf : m.ovf = false → WF c m.buckets m.nbuckets
  cnt : m.ovf = false → m.count = m.cont.card
  nodup : m.ovf = false → (m.cont.map Ent.key).Nodup

theorem growAt_lt {c : Ctx} (hv : c.Valid) {n : Nat} (hn : 64 ≤ n) : growAt c n < n := by
  unfold growAt
  obtain ⟨_, h2⟩ := hv
  have : n * c.lf ≤ n * 95 := Nat.mul_le_mul_left n h2
  omega

theorem growAt_two {c : Ctx} (n : Nat) : 2 * growAt c n ≤ growAt c (n * 2) := by
  unfold growAt
  rw [Nat.mul_right_comm]
  omega

theorem growAt_pos {c : Ctx} (hv : c.Valid) {n : Nat} (hn : 64 ≤ n) : 35 ≤ growAt c n := by
  unfold growAt
  obtain ⟨h1, _⟩ := hv
  have : 64 * 55 ≤ n * c.lf := Nat.mul_le_mul hn h1
  omega

theorem inv_init {c : Ctx} (_hv : c.Valid) : Inv c (mapInit c 64) := by
  constructor
  · exact ⟨6, rfl⟩
  · rfl
  · simp [mapInit]
  · rfl
  · rfl
  · simp [mapInit]
  · simp [mapInit, Tbl.cont, cont_empty]
  · intro _; exact wf_empty c _
  · intro _; simp [mapInit, Tbl.cont, cont_empty]
  · intro _; simp [mapInit, Tbl.cont, cont_empty]

theorem cont_init (c : Ctx) (n : Nat) : (mapInit c n).cont = 0 := cont_empty n

theorem Inv.lt {c : Ctx} {m : Tbl} (h : Inv c m) (hv : c.Valid) : m.cont.card < m.nbuckets := by
  have h1 := growAt_lt hv h.ge
  have h2 := h.grow
  have h3 := h.load
  have h4 := h.card
  omega

/-- Effect of a successful `resize`. -/
theorem resize_spec {c : Ctx} {m : Tbl} {n2 k : Nat} (hv : c.Valid) (h : Inv c m) (hk : n2 = 2 ^ k)
    (hn : 64 ≤ n2) (hlt : m.count < growAt c n2) :
    ∃ m', resize c m n2 true = some (m', true) ∧ Inv c m' ∧ m'.count = m.count ∧ m'.total = m.total ∧
      m'.entsize = m.entsize ∧ m'.nbuckets = n2 ∧ m'.count < m'.growat ∧
      (m'.ovf = false → m.ovf = false ∧ m'.cont = m.cont) := by
  have hc := h.card
  have h1 := growAt_lt hv hn
  obtain ⟨b, o, hf, hcard, hok⟩ := resize_fold (c := c) hk (by omega) m.buckets m.nbuckets m.ovf
    (fun ho => (h.wf ho).hash) m.nbuckets (le_refl _) (by unfold Tbl.cont at hc; omega)
  refine ⟨{ mapInit c n2 with
      buckets := b, ovf := o, cap := m.cap, count := m.count, entsize := m.entsize, total := m.total },
    by unfold resize; simp only [if_true]; rw [show (mapInit c n2).buckets = fun _ => emptyBucket from rfl, hf]; rfl,
    ?_, rfl, rfl, rfl, rfl, ?_, ?_⟩
  · constructor
    · exact ⟨k, hk⟩
    · exact h.cap
    · exact hn
    · rfl
    · rfl
    · exact le_of_lt hlt
    · unfold Tbl.cont at hc ⊢
      simp only [mapInit]
      omega
    · intro ho; exact (hok ho).2.1
    · intro ho
      obtain ⟨h1, _, h3⟩ := hok ho
      show m.count = (Map.cont b n2).card
      rw [h3]; exact h.cnt h1
    · intro ho
      obtain ⟨h1, _, h3⟩ := hok ho
      show ((Map.cont b n2).map Ent.key).Nodup
      rw [h3]; exact h.nodup h1
  · exact hlt
  · intro ho
    obtain ⟨h1, _, h3⟩ := hok ho
    exact ⟨h1, h3⟩

/-- The entry size account after taking out a replaced entry. -/
def subOld (x : Nat) : Option Ent → Nat
  | none => x
  | some o => sub64 x o.size

/-- What an insertion does to the contents. -/
def InsEffect (e : Ent) (old : Option Ent) (before after : Multiset Ent) : Prop :=
  match old with
  | none => (∀ x ∈ before, x.key ≠ e.key) ∧ after = before + {e}
  | some o => o ∈ before ∧ o.key = e.key ∧ after + {o} = before + {e}

/-- The insertion proper (room is available). -/
theorem insert_core {c : Ctx} {m : Tbl} {e : Ent} (hv : c.Valid) (h : Inv c m) (hlt : m.count < m.growat) :
    ∃ m' old, insertLoop (m.nbuckets + 1) m (c.hash24 e.key &&& m.mask) ⟨e, c.hash24 e.key, 1⟩ = some (m', old) ∧
      Inv c m' ∧ m'.nbuckets = m.nbuckets ∧ m'.growat = m.growat ∧
      (m'.count = if old = none then m.count + 1 else m.count) ∧
      (m'.total = if old = none then m.total + 1 else m.total) ∧
      m'.entsize = subOld m.entsize old ∧
      (m'.ovf = false → m.ovf = false ∧ InsEffect e old m.cont m'.cont) := by
  obtain ⟨k, hk⟩ := h.pow
  have hlt' := h.lt hv
  have hn2 : 2 ≤ m.nbuckets := by have := h.ge; omega
  have hpos : 0 < m.nbuckets := by omega
  set n := m.nbuckets with hnb
  have hmask : c.hash24 e.key &&& m.mask = c.hash24 e.key % n := by
    unfold Tbl.mask; exact and_mask hk _
  rw [hmask]
  obtain ⟨t, ht, hd⟩ := exists_empty_from (b := m.buckets) (n := n) hlt' (c.hash24 e.key)
  obtain ⟨m', old, hr, g1, g2, g3, g4, g5, g6⟩ := insertLoop_stops hk (fuel := n + 1) (m := m)
    (eb := ⟨e, c.hash24 e.key, 1⟩) hnb.symm hd (by omega)
  have hfacts : m'.count = (if old = none then m.count + 1 else m.count) ∧
      m'.total = (if old = none then m.total + 1 else m.total) ∧
      m'.entsize = subOld m.entsize old ∧
      (Map.cont m'.buckets n).card ≤ (if old = none then (Map.cont m.buckets n).card + 1 else (Map.cont m.buckets n).card) := by
    cases old with
    | none => simpa [subOld] using g5 rfl
    | some o => simpa [subOld] using g6 o rfl
  have heff : m'.ovf = false → m.ovf = false ∧ InsEffect e old m.cont m'.cont ∧ WF c m'.buckets n := by
    intro ho
    have ho0 := insertLoop_ovf hr ho
    refine ⟨ho0, ?_⟩
    have hw := h.wf ho0
    rw [← hnb] at hw
    by_cases hex : ∃ p, p < n ∧ (m.buckets p).dib ≠ 0 ∧ (m.buckets p).ent.key = e.key
    · obtain ⟨p, hp, hpd, hpk⟩ := hex
      have hph : (m.buckets p).hash = c.hash24 e.key := by rw [hw.hash p hp hpd, hpk]
      obtain ⟨s, hne, hm, hpath⟩ := first_match hw hp hpd
      rw [hph, hpk] at hne hm
      rw [hph] at hpath
      have hsn : s < n := by
        by_contra hge
        have hall := hpath t (by omega)
        rw [hd] at hall
        omega
      have hq := hpath s (le_refl _)
      have hrep := insertLoop_replace hk (s := s) (fuel := n + 1) (i := c.hash24 e.key) (m := m)
        (eb := ⟨e, c.hash24 e.key, 1⟩) hnb.symm (by omega)
        (fun u hu => by have := hpath u hu; simp only []; omega) (by simp)
        (fun j => hw.byte _ (Nat.mod_lt _ hpos))
        (fun u hu hc => hne u hu ⟨hc.1.symm, hc.2.symm⟩) ⟨hm.1.symm, hm.2.symm⟩
      rw [hr] at hrep
      simp only [Option.some.injEq, Prod.mk.injEq] at hrep
      obtain ⟨rfl, rfl⟩ := hrep
      set q := (c.hash24 e.key + s) % n with hqdef
      have hqlt : q < n := Nat.mod_lt _ hpos
      have hq0 : (m.buckets q).dib ≠ 0 := by
        have : D m.buckets n (c.hash24 e.key + s) = (m.buckets q).dib := rfl
        omega
      refine ⟨⟨mem_cont.2 ⟨q, hqlt, hq0, rfl⟩, hm.2, ?_⟩, ?_⟩
      · have := cont_update m.buckets hqlt { m.buckets q with ent := e }
        rw [bc, if_neg hq0, bc, if_neg hq0] at this
        exact this
      · simp only []
        have hD : ∀ j, D (update m.buckets q { m.buckets q with ent := e }) n j = D m.buckets n j := by
          intro j
          rw [hqdef, D_update]
          split
          · rename_i hj; unfold D; rw [hj]
          · rfl
        constructor
        · intro j; rw [hD, hD]; exact hw.step j
        · intro j hj
          by_cases hjq : j = q
          · subst hjq; rw [update_self]; exact hw.home _ hj
          · rw [update_of_ne hjq]; exact hw.home _ hj
        · intro j hj hdj
          by_cases hjq : j = q
          · rw [hjq, update_self]; exact hm.1
          · rw [update_of_ne hjq] at hdj ⊢; exact hw.hash _ hj hdj
        · intro j hj
          by_cases hjq : j = q
          · subst hjq; rw [update_self]; exact hw.byte _ hj
          · rw [update_of_ne hjq]; exact hw.byte _ hj
    · push Not at hex
      have hnone : ∀ x ∈ m.cont, x.key ≠ e.key := by
        intro x hx
        obtain ⟨j, hj, hd, rfl⟩ := mem_cont.1 hx
        exact hex j hj hd
      have hidx : c.hash24 e.key % n = (c.hash24 e.key + n - 1 + 1) % n := by
        rw [show c.hash24 e.key + n - 1 + 1 = c.hash24 e.key + n by omega, Nat.add_mod_right]
      rw [hidx] at hr
      have hnd : ((Map.cont m.buckets n + {e}).map Ent.key).Nodup := by
        rw [Multiset.map_add, Multiset.nodup_add]
        refine ⟨h.nodup ho0, by simp, ?_⟩
        rw [Multiset.disjoint_left]
        intro a ha hb
        obtain ⟨x, hx, rfl⟩ := Multiset.mem_map.1 ha
        simp at hb
        exact hnone x hx hb
      obtain ⟨h1, b', h2, h3, h4⟩ := insertLoop_new (c := c) hk hn2 hnb.symm hr ho hw
        ⟨by simp, by simp, rfl, by
          simp only []
          rw [show c.hash24 e.key + n - 1 + 2 = c.hash24 e.key + 1 + n by omega, Nat.add_mod_right], by simp⟩ hnd
      subst h1
      rw [h2]
      exact ⟨⟨hnone, h4⟩, h3⟩
  refine ⟨m', old, hr, ?_, g2, g3, hfacts.1, hfacts.2.1, hfacts.2.2.1, fun ho => ⟨(heff ho).1, (heff ho).2.1⟩⟩
  have hm'n : m'.nbuckets = n := g2
  have hcl : m'.cont.card ≤ m'.count := by
    have hc := h.card
    unfold Tbl.cont at hc ⊢
    rw [hm'n, hfacts.1]
    have := hfacts.2.2.2
    split <;> simp_all <;> omega
  constructor
  · exact ⟨k, hm'n.trans hk⟩
  · exact g1.trans h.cap
  · rw [hm'n]; exact h.ge
  · rw [g3, hm'n]; exact h.grow
  · rw [g4, hm'n]; exact h.shrink
  · rw [hfacts.1, g3]; split <;> omega
  · exact hcl
  · intro ho; rw [hm'n]; exact (heff ho).2.2
  · intro ho
    obtain ⟨ho0, he, _⟩ := heff ho
    have := h.cnt ho0
    rw [hfacts.1, this]
    cases old with
    | none => rw [he.2]; simp
    | some o =>
      have := congrArg Multiset.card he.2.2
      simp at this
      simp [this]
  · intro ho
    obtain ⟨ho0, he, _⟩ := heff ho
    have hnd := h.nodup ho0
    cases old with
    | none =>
      rw [he.2, Multiset.map_add, Multiset.nodup_add]
      refine ⟨hnd, by simp, ?_⟩
      rw [Multiset.disjoint_left]
      intro a ha hb
      obtain ⟨x, hx, rfl⟩ := Multiset.mem_map.1 ha
      simp at hb
      exact he.1 x hx hb
    | some o =>
      have h3 := congrArg (Multiset.map Ent.key) he.2.2
      rw [Multiset.map_add, Multiset.map_add, Multiset.map_singleton, Multiset.map_singleton, he.2.1] at h3
      have := add_right_cancel h3
      rw [this]; exact hnd

/-- Effect of `map_insert`. -/
theorem mapInsert_spec {c : Ctx} {m : Tbl} {e : Ent} {ok : Bool} (hv : c.Valid) (h : Inv c m) :
    ∃ m' r, mapInsert c m e ok = some (m', r) ∧ Inv c m' ∧
      (m'.ovf = false → m.ovf = false) ∧
      (r = none ↔ (m.growat ≤ m.count ∧ ok = false)) ∧
      (r = none → m' = m) ∧
      (∀ old, r = some old →
        m'.count = (if old = none then m.count + 1 else m.count) ∧
        m'.total = (if old = none then m.total + 1 else m.total) ∧
        m'.entsize = subOld (add64 m.entsize e.size) old ∧
        (old ≠ none → m'.count < m'.growat) ∧
        (m'.ovf = false → InsEffect e old m.cont m'.cont)) := by
  have core : ∀ m0 : Tbl, Inv c m0 → m0.count < m0.growat →
      ∃ m' old, (insertLoop (m0.nbuckets + 1) { m0 with entsize := add64 m0.entsize e.size }
          (c.hash24 e.key &&& m0.mask) ⟨e, c.hash24 e.key, 1⟩).map (fun r => (r.1, some r.2)) = some (m', some old) ∧
        Inv c m' ∧ (m'.ovf = false → m0.ovf = false) ∧
        m'.count = (if old = none then m0.count + 1 else m0.count) ∧
        m'.total = (if old = none then m0.total + 1 else m0.total) ∧
        m'.entsize = subOld (add64 m0.entsize e.size) old ∧
        (old ≠ none → m'.count < m'.growat) ∧
        (m'.ovf = false → InsEffect e old m0.cont m'.cont) := by
    intro m0 h0 hlt
    have h0' : Inv c { m0 with entsize := add64 m0.entsize e.size } :=
      ⟨h0.pow, h0.cap, h0.ge, h0.grow, h0.shrink, h0.load, h0.card, h0.wf, h0.cnt, h0.nodup⟩
    obtain ⟨m', old, hr, hi, _, hg, hc, ht, hs, ho⟩ := insert_core (e := e) hv h0' hlt
    refine ⟨m', old, ?_, hi, fun h => (ho h).1, hc, ht, hs, ?_, fun h => (ho h).2⟩
    · have hr' : insertLoop (m0.nbuckets + 1) { m0 with entsize := add64 m0.entsize e.size }
          (c.hash24 e.key &&& m0.mask) ⟨e, c.hash24 e.key, 1⟩ = some (m', old) := hr
      rw [hr']; rfl
    · intro hne
      rw [hc, hg, if_neg hne]; exact hlt
  by_cases hfull : m.count ≥ m.growat
  · cases ok with
    | false =>
      refine ⟨m, none, ?_, h, id, ?_, fun _ => rfl, by simp⟩
      · unfold mapInsert
        simp only []
        rw [if_pos hfull]
        simp [resize]
      · simp [hfull]
    | true =>
      obtain ⟨k, hk⟩ := h.pow
      have hge := h.ge
      have h2 := growAt_two (c := c) m.nbuckets
      have h3 := growAt_pos hv h.ge
      have h4 := h.load
      have h5 := h.grow
      obtain ⟨m1, hr1, hi1, hc1, ht1, hs1, hn1, hl1, ho1⟩ := resize_spec (n2 := m.nbuckets * 2) (k := k + 1) hv h
        (by rw [hk, pow_succ]) (by omega) (by omega)
      obtain ⟨m', old, hr, hi, hov, hc, ht, hs, hg, heff⟩ := core m1 hi1 hl1
      refine ⟨m', some old, ?_, hi, fun ho => (ho1 (hov ho)).1, by simp, by simp, ?_⟩
      · unfold mapInsert
        simp only []
        rw [if_pos hfull, hr1]
        simp only [Option.bind_some, if_true]
        exact hr
      · intro old' he
        simp at he
        subst he
        refine ⟨by rw [hc, hc1], by rw [ht, ht1], by rw [hs, hs1], hg, ?_⟩
        intro ho
        rw [← (ho1 (hov ho)).2]
        exact heff ho
  · obtain ⟨m', old, hr, hi, hov, hc, ht, hs, hg, heff⟩ := core m h (by omega)
    refine ⟨m', some old, ?_, hi, hov, by simp; omega, by simp, ?_⟩
    · unfold mapInsert
      simp only []
      rw [if_neg hfull]
      exact hr
    · intro old' he
      simp at he
      subst he
      exact ⟨hc, ht, hs, hg, heff⟩

/-- Lookup always stops; a hit is a bucket with the key; a miss means the key is absent. -/
theorem getBucket_spec {c : Ctx} {m : Tbl} (hv : c.Valid) (h : Inv c m) (key : Bytes) :
    ∃ r, getBucket c m key = some r ∧
      (∀ i, r = some i → i < m.nbuckets ∧ (m.buckets i).dib ≠ 0 ∧ (m.buckets i).ent.key = key) ∧
      (r = none → m.ovf = false → ∀ x ∈ m.cont, x.key ≠ key) := by
  obtain ⟨k, hk⟩ := h.pow
  have hlt' := h.lt hv
  have hpos : 0 < m.nbuckets := by omega
  have hmask : c.hash24 key &&& m.mask = c.hash24 key % m.nbuckets := by
    unfold Tbl.mask; exact and_mask hk _
  unfold getBucket
  rw [hmask]
  obtain ⟨t, ht, hd⟩ := exists_empty_from (b := m.buckets) (n := m.nbuckets) hlt' (c.hash24 key)
  obtain ⟨r, hr⟩ := getLoop_stops hk (key := key) (hash := c.hash24 key) (fuel := m.nbuckets + 1) (by omega) hd
  refine ⟨r, hr, ?_, ?_⟩
  · intro i hi
    rw [hi] at hr
    exact getLoop_sound hk hr
  · intro hnone ho x hx hkey
    have hw := h.wf ho
    obtain ⟨p, hp, hpd, rfl⟩ := mem_cont.1 hx
    have hph : (m.buckets p).hash = c.hash24 key := by rw [hw.hash p hp hpd, hkey]
    obtain ⟨s, hne, hm, hpath⟩ := first_match hw hp hpd
    rw [hph, hkey] at hne hm
    rw [hph] at hpath
    have hsn : s < m.nbuckets := by
      by_contra hge
      have hall := hpath t (by omega)
      rw [hd] at hall
      omega
    have := getLoop_found hk (key := key) (hash := c.hash24 key) (s := s) (fuel := m.nbuckets + 1)
      (i := c.hash24 key) (by omega)
      (fun u hu => ⟨by have := hpath u (by omega); omega, hne u hu⟩)
      (by have := hpath s (le_refl _); omega) hm
    rw [hr, hnone] at this
    simp at this

/-- Effect of `delbkt` on an occupied bucket. -/
theorem delbkt_spec {c : Ctx} {m : Tbl} (hv : c.Valid) (h : Inv c m) {i : Nat} (hi : i < m.nbuckets)
    (hd : (m.buckets i).dib ≠ 0) :
    ∃ m', delbkt m i = some m' ∧ Inv c m' ∧ m'.ovf = m.ovf ∧ m'.count + 1 = m.count ∧ m'.total = m.total ∧
      m'.entsize = m.entsize ∧ m'.nbuckets = m.nbuckets ∧ m'.growat = m.growat ∧ m'.count < m'.growat ∧
      (m.ovf = false → m'.cont + {(m.buckets i).ent} = m.cont) := by
  obtain ⟨k, hk⟩ := h.pow
  have hlt' := h.lt hv
  have hge := h.ge
  have hn2 : 2 ≤ m.nbuckets := by omega
  have hpos : 0 < m.nbuckets := by omega
  obtain ⟨t, ht, hdt⟩ := exists_empty_from (b := m.buckets) (n := m.nbuckets) hlt' (i + 1)
  have hne : (i + 1 + t) % m.nbuckets ≠ i % m.nbuckets := by
    intro e
    rw [D_congr e] at hdt
    unfold D at hdt
    rw [Nat.mod_eq_of_lt hi] at hdt
    exact hd hdt
  set b1 := update m.buckets i { m.buckets i with dib := 0 } with hb1
  have himod : i % m.nbuckets = i := Nat.mod_eq_of_lt hi
  have hdt' : D b1 m.nbuckets (i + 1 + t) = 0 := by
    have : b1 = update m.buckets (i % m.nbuckets) { m.buckets i with dib := 0 } := by rw [hb1, himod]
    rw [this, D_update, if_neg hne]
    exact hdt
  obtain ⟨b', hr, hcard⟩ := delLoop_stops hk hn2 (fuel := m.nbuckets + 1) hdt' hne (by omega)
  rw [himod] at hr hcard
  have hupd : update b1 i emptyBucket = update m.buckets i emptyBucket := by rw [hb1, update_idem]
  rw [hupd] at hcard
  have hce := cont_update m.buckets hi emptyBucket
  have hb0 : bc emptyBucket = 0 := by simp [bc, emptyBucket]
  rw [hb0, add_zero, bc, if_neg hd] at hce
  have hcc := congrArg Multiset.card hce
  rw [Multiset.card_add, Multiset.card_singleton] at hcc
  have hcard0 := h.card
  unfold Tbl.cont at hcard0
  have hload := h.load
  have hcont : m.ovf = false → WF c b' m.nbuckets ∧ cont b' m.nbuckets + {(m.buckets i).ent} = cont m.buckets m.nbuckets := by
    intro ho
    have hw := h.wf ho
    have hi2 : i = (i + m.nbuckets - 1 + 1) % m.nbuckets := by
      rw [show i + m.nbuckets - 1 + 1 = i + m.nbuckets by omega, Nat.add_mod_right, himod]
    have hr2 := hr
    conv at hr2 => lhs; arg 4; rw [hi2]
    have := delLoop_correct (c := c) hk hn2 hr2 (x := m.buckets i) (by
      rw [← hi2, hb1, update_idem, update_eq_self]; exact hw) hd
    rw [← hi2, hupd] at this
    refine ⟨this.1, ?_⟩
    rw [this.2, hce]
  refine ⟨{ m with buckets := b', count := m.count - 1 }, ?_, ?_, rfl, ?_, rfl, rfl, rfl, rfl, ?_, fun ho => (hcont ho).2⟩
  · unfold delbkt
    rw [show m.mask = m.nbuckets - 1 from rfl, ← hb1, hr]; rfl
  · constructor
    · exact h.pow
    · exact h.cap
    · exact h.ge
    · exact h.grow
    · exact h.shrink
    · show m.count - 1 ≤ m.growat; omega
    · show (cont b' m.nbuckets).card ≤ m.count - 1; omega
    · intro ho; exact (hcont ho).1
    · intro ho
      show m.count - 1 = (cont b' m.nbuckets).card
      have := h.cnt ho
      unfold Tbl.cont at this
      omega
    · intro ho
      have := h.nodup ho
      unfold Tbl.cont at this
      rw [← (hcont ho).2, Multiset.map_add, Multiset.nodup_add] at this
      exact this.1
  · show m.count - 1 + 1 = m.count; omega
  · show m.count - 1 < m.growat; omega

/-- Effect of `map_delete`. -/
theorem mapDelete_spec {c : Ctx} {m : Tbl} (hv : c.Valid) (h : Inv c m) (key : Bytes) :
    ∃ m' r, mapDelete c m key = some (m', r) ∧ Inv c m' ∧ m'.ovf = m.ovf ∧ m'.total = m.total ∧
      (r = none → m' = m ∧ (m.ovf = false → ∀ x ∈ m.cont, x.key ≠ key)) ∧
      (∀ e, r = some e → e.key = key ∧ m'.count + 1 = m.count ∧ m'.entsize = sub64 m.entsize e.size ∧
        m'.count < m'.growat ∧ e ∈ m.cont ∧
        (m.ovf = false → m'.cont + {e} = m.cont)) := by
  obtain ⟨r, hr, hs, hn⟩ := getBucket_spec hv h key
  unfold mapDelete
  rw [hr]
  cases r with
  | none => exact ⟨m, none, rfl, h, rfl, rfl, fun _ => ⟨rfl, hn rfl⟩, by simp⟩
  | some i =>
    obtain ⟨hi, hd, hk⟩ := hs i rfl
    have h' : Inv c { m with entsize := sub64 m.entsize (m.buckets i).ent.size } :=
      ⟨h.pow, h.cap, h.ge, h.grow, h.shrink, h.load, h.card, h.wf, h.cnt, h.nodup⟩
    obtain ⟨m', hm', hinv, hov, hc, ht, hes, _, _, hlt, hcont⟩ := delbkt_spec hv h' hi hd
    refine ⟨m', some (m.buckets i).ent, ?_, hinv, hov, ht, by simp, ?_⟩
    · simp only [Option.bind_some, delEntryAt]
      rw [hm']; rfl
    · intro e he
      simp at he
      subst he
      exact ⟨hk, hc, hes, hlt, mem_cont.2 ⟨i, hi, hd, rfl⟩, hcont⟩

/-- The capacity search of `tryshrink` stops with a sufficient power of two. -/
theorem shrinkCap_spec {c : Ctx} (hv : c.Valid) (count : Nat) (fuel k : Nat) (hk : 6 ≤ k)
    (hf : count + 1 < fuel + growAt c (2 ^ k)) (hf0 : 0 < fuel) :
    ∃ k', 6 ≤ k' ∧ shrinkCap c count fuel (2 ^ k) = some (2 ^ k') ∧ count < growAt c (2 ^ k') := by
  induction fuel generalizing k with
  | zero => omega
  | succ f ih =>
    unfold shrinkCap
    split
    · rename_i hge
      have h64 : 64 ≤ 2 ^ k := le_trans (by decide : 64 ≤ 2 ^ 6) (Nat.pow_le_pow_right (by decide) hk)
      have h1 := growAt_two (c := c) (2 ^ k)
      have h2 := growAt_pos hv h64
      rw [← pow_succ] at h1 ⊢
      by_cases hf1 : f = 0
      · exfalso; subst hf1; omega
      · exact ih (k + 1) (by omega) (by omega) (by omega)
    · exact ⟨k, hk, rfl, by omega⟩

/-- `tryshrink` never fails and keeps the contents. -/
theorem tryShrink_spec {c : Ctx} {m : Tbl} (hv : c.Valid) (h : Inv c m) (ok : Bool) :
    ∃ m', tryShrink c m ok = some m' ∧ Inv c m' ∧ m'.count = m.count ∧ m'.total = m.total ∧
      m'.entsize = m.entsize ∧ (m'.ovf = false → m.ovf = false ∧ m'.cont = m.cont) := by
  unfold tryShrink
  split
  · have hg := growAt_pos hv (le_refl 64)
    obtain ⟨k', hk', hs, hlt⟩ := shrinkCap_spec hv m.count (m.count + 1) 6 (le_refl _)
      (by show m.count + 1 < m.count + 1 + growAt c 64; omega) (by omega)
    rw [h.cap, show (64 : Nat) = 2 ^ 6 from rfl, hs]
    simp only [Option.bind_some]
    cases ok with
    | false => exact ⟨m, by simp [resize], h, rfl, rfl, rfl, fun ho => ⟨ho, rfl⟩⟩
    | true =>
      obtain ⟨m', hr, hi, hc, ht, he, _, _, ho⟩ := resize_spec hv h (k := k') rfl
        (le_trans (by decide : 64 ≤ 2 ^ 6) (Nat.pow_le_pow_right (by decide) hk')) hlt
      exact ⟨m', by rw [hr]; rfl, hi, hc, ht, he, ho⟩
  · exact ⟨m, rfl, h, rfl, rfl, rfl, fun ho => ⟨ho, rfl⟩⟩

end Verif.Map
