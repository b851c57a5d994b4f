import Verif.Map.Lemmas

/-!
Lookup and insertion loops of the Robin-Hood table.
-/

namespace Verif.Map

open Function

/-! ### `getLoop` -/

theorem getLoop_found {m : Tbl} {k : Nat} (hk : m.nbuckets = 2 ^ k) {key : Bytes} {hash : Nat} {s fuel i : Nat}
    (hf : s < fuel)
    (hne : ∀ u, u < s → D m.buckets m.nbuckets (i + u) ≠ 0 ∧
      ¬ ((m.buckets ((i + u) % m.nbuckets)).hash = hash ∧ (m.buckets ((i + u) % m.nbuckets)).ent.key = key))
    (h0 : D m.buckets m.nbuckets (i + s) ≠ 0)
    (hm : (m.buckets ((i + s) % m.nbuckets)).hash = hash ∧ (m.buckets ((i + s) % m.nbuckets)).ent.key = key) :
    getLoop m key hash fuel (i % m.nbuckets) = some (some ((i + s) % m.nbuckets)) := by
  induction s generalizing i fuel with
  | zero =>
    obtain ⟨f, rfl⟩ : ∃ f, fuel = f + 1 := ⟨fuel - 1, by omega⟩
    unfold getLoop
    rw [if_neg (by exact h0), if_pos (by exact hm)]
    rfl
  | succ s ih =>
    obtain ⟨f, rfl⟩ : ∃ f, fuel = f + 1 := ⟨fuel - 1, by omega⟩
    unfold getLoop
    have h := hne 0 (by omega)
    rw [if_neg (by exact h.1), if_neg (by exact h.2)]
    unfold Tbl.mask
    rw [next_mask hk]
    have e : ∀ u, i + 1 + u = i + (u + 1) := fun u => by omega
    have := ih (i := i + 1) (fuel := f) (by omega) (fun u hu => by rw [e]; exact hne (u + 1) (by omega))
      (by rw [e]; exact h0) (by rw [e]; exact hm)
    rw [this, e]

theorem getLoop_missing {m : Tbl} {k : Nat} (hk : m.nbuckets = 2 ^ k) {key : Bytes} {hash : Nat} {t fuel i : Nat}
    (hf : t < fuel)
    (hne : ∀ u, u < t → D m.buckets m.nbuckets (i + u) ≠ 0 ∧
      ¬ ((m.buckets ((i + u) % m.nbuckets)).hash = hash ∧ (m.buckets ((i + u) % m.nbuckets)).ent.key = key))
    (h0 : D m.buckets m.nbuckets (i + t) = 0) :
    getLoop m key hash fuel (i % m.nbuckets) = some none := by
  induction t generalizing i fuel with
  | zero =>
    obtain ⟨f, rfl⟩ : ∃ f, fuel = f + 1 := ⟨fuel - 1, by omega⟩
    unfold getLoop
    rw [if_pos (by exact h0)]
  | succ s ih =>
    obtain ⟨f, rfl⟩ : ∃ f, fuel = f + 1 := ⟨fuel - 1, by omega⟩
    unfold getLoop
    have h := hne 0 (by omega)
    rw [if_neg (by exact h.1), if_neg (by exact h.2)]
    unfold Tbl.mask
    rw [next_mask hk]
    have e : ∀ u, i + 1 + u = i + (u + 1) := fun u => by omega
    exact ih (i := i + 1) (fuel := f) (by omega) (fun u hu => by rw [e]; exact hne (u + 1) (by omega))
      (by rw [e]; exact h0)

/-- Whatever the table looks like, a found bucket is occupied and holds the key. -/
theorem getLoop_sound {m : Tbl} {k : Nat} (hk : m.nbuckets = 2 ^ k) {key : Bytes} {hash fuel i j : Nat}
    (h : getLoop m key hash fuel (i % m.nbuckets) = some (some j)) :
    j < m.nbuckets ∧ (m.buckets j).dib ≠ 0 ∧ (m.buckets j).ent.key = key := by
  induction fuel generalizing i with
  | zero => simp [getLoop] at h
  | succ f ih =>
    unfold getLoop at h
    split at h
    · simp at h
    · split at h
      · rename_i h1 h2
        simp at h
        subst h
        exact ⟨Nat.mod_lt _ (by rw [hk]; exact Nat.two_pow_pos k), h1, h2.2⟩
      · unfold Tbl.mask at h
        rw [next_mask hk] at h
        exact ih h

theorem getLoop_stops {m : Tbl} {k : Nat} (hk : m.nbuckets = 2 ^ k) {key : Bytes} {hash t fuel i : Nat}
    (hf : t < fuel) (h0 : D m.buckets m.nbuckets (i + t) = 0) :
    ∃ r, getLoop m key hash fuel (i % m.nbuckets) = some r := by
  induction fuel generalizing i t with
  | zero => omega
  | succ f ih =>
    unfold getLoop
    split
    · exact ⟨_, rfl⟩
    · rename_i hd
      split
      · exact ⟨_, rfl⟩
      · unfold Tbl.mask
        rw [next_mask hk]
        have ht0 : t ≠ 0 := by rintro rfl; exact hd h0
        exact ih (i := i + 1) (t := t - 1) (by omega) (by rw [show i + 1 + (t - 1) = i + t by omega]; exact h0)

/-- In a well-formed table an occupied bucket is reached from its home through occupied buckets that
are at least as far from their homes. -/
theorem probe_path {c : Ctx} {b : Nat → Bucket} {n : Nat} (hw : WF c b n) {p : Nat} (hp : p < n)
    (hd : (b p).dib ≠ 0) :
    ∃ s, (b p).dib = s + 1 ∧ ((b p).hash + s) % n = p ∧
      ∀ u, u ≤ s → u + 1 ≤ D b n ((b p).hash + u) := by
  obtain ⟨s, hs⟩ : ∃ s, (b p).dib = s + 1 := ⟨(b p).dib - 1, by omega⟩
  have hh : ((b p).hash + s) % n = p := by
    have := hw.home p hp hd
    rw [hs, ← Nat.add_assoc] at this
    have := succ_mod_inj this
    rw [this, Nat.mod_eq_of_lt hp]
  refine ⟨s, hs, hh, ?_⟩
  intro u hu
  have h1 := chain hw.step ((b p).hash + u) (s - u)
  rw [show (b p).hash + u + (s - u) = (b p).hash + s by omega] at h1
  have h2 : D b n ((b p).hash + s) = s + 1 := by unfold D; rw [hh, hs]
  omega

/-- The first match on the probe path of a present key. -/
theorem first_match {c : Ctx} {b : Nat → Bucket} {n : Nat} (hw : WF c b n) {p : Nat} (hp : p < n)
    (hd : (b p).dib ≠ 0) :
    ∃ s, (∀ u, u < s → ¬ ((b (((b p).hash + u) % n)).hash = (b p).hash ∧
            (b (((b p).hash + u) % n)).ent.key = (b p).ent.key)) ∧
      ((b (((b p).hash + s) % n)).hash = (b p).hash ∧ (b (((b p).hash + s) % n)).ent.key = (b p).ent.key) ∧
      (∀ u, u ≤ s → u + 1 ≤ D b n ((b p).hash + u)) := by
  classical
  obtain ⟨s, hs, hh, hpath⟩ := probe_path hw hp hd
  have hex : ∃ u, (b (((b p).hash + u) % n)).hash = (b p).hash ∧
      (b (((b p).hash + u) % n)).ent.key = (b p).ent.key := ⟨s, by rw [hh]; exact ⟨rfl, rfl⟩⟩
  refine ⟨Nat.find hex, fun u hu => Nat.find_min hex hu, Nat.find_spec hex, ?_⟩
  intro u hu
  apply hpath
  have : Nat.find hex ≤ s := Nat.find_min' hex (by rw [hh]; exact ⟨rfl, rfl⟩)
  omega

/-! ### `insertLoop` -/

theorem insertLoop_ovf {fuel : Nat} {m m' : Tbl} {i : Nat} {eb : Bucket} {old : Option Ent}
    (h : insertLoop fuel m i eb = some (m', old)) (ho : m'.ovf = false) : m.ovf = false := by
  induction fuel generalizing m i eb with
  | zero => simp [insertLoop] at h
  | succ f ih =>
    unfold insertLoop at h
    simp only [] at h
    split at h
    · simp at h; rw [← h.1] at ho; exact ho
    · split at h
      · simp at h; rw [← h.1] at ho; exact ho
      · split at h
        · have := ih h; simp at this; exact this.1
        · have := ih h; simp at this; exact this.1

/-- The carried key is not in the table: the loop places it. -/
theorem insertLoop_new {c : Ctx} {n k : Nat} (hk : n = 2 ^ k) (hn : 2 ≤ n) {fuel : Nat} {m m' : Tbl}
    {i : Nat} {eb : Bucket} {old : Option Ent} (hnb : m.nbuckets = n)
    (h : insertLoop fuel m ((i + 1) % n) eb = some (m', old)) (ho : m'.ovf = false)
    (hw : WF c m.buckets n) (hc : Carry c m.buckets n i eb)
    (hnd : ((cont m.buckets n + {eb.ent}).map Ent.key).Nodup) :
    old = none ∧ ∃ b', m' = { m with buckets := b', count := m.count + 1, total := m.total + 1 } ∧
      WF c b' n ∧ cont b' n = cont m.buckets n + {eb.ent} := by
  have hpos : 0 < n := by omega
  induction fuel generalizing m i eb with
  | zero => simp [insertLoop] at h
  | succ f ih =>
    have hov := insertLoop_ovf h ho
    unfold insertLoop at h
    simp only [Tbl.mask] at h
    rw [show ((i + 1) % n + 1) &&& (m.nbuckets - 1) = (i + 1 + 1) % n from by
      rw [hnb, next_mask hk]] at h
    split at h
    · rename_i h0
      simp at h
      have := place_step hn hw hc h0
      exact ⟨h.2.symm, _, h.1.symm, this.1, this.2⟩
    · rename_i h0
      split at h
      · rename_i hm
        exfalso
        rw [Multiset.map_add, Multiset.nodup_add] at hnd
        have h1 := hnd.2.2
        rw [Multiset.disjoint_left] at h1
        apply h1 (a := eb.ent.key)
        · rw [Multiset.mem_map]
          exact ⟨(m.buckets ((i + 1) % n)).ent, mem_cont.2 ⟨_, Nat.mod_lt _ hpos, h0, rfl⟩, hm.2.symm⟩
        · simp
      · split at h
        · rename_i hlt
          have ho1 := insertLoop_ovf h ho
          simp only [Bool.or_eq_false_iff, decide_eq_false_iff_not] at ho1
          obtain ⟨hw', hc', hcont⟩ := swap_step hn hw hc h0 hlt ho1.2
          obtain ⟨h1, b', h2, h3, h4⟩ := ih (by exact hnb) h hw' hc' (by
            simp only []
            rw [hcont]; exact hnd)
          refine ⟨h1, b', ?_, h3, ?_⟩
          · rw [h2]
            have : decide ((m.buckets ((i + 1) % n)).dib + 1 ≥ 256) = false := decide_eq_false ho1.2
            simp only [this, Bool.or_false]
          · rw [h4]; exact hcont
        · rename_i hge
          have ho1 := insertLoop_ovf h ho
          simp only [Bool.or_eq_false_iff, decide_eq_false_iff_not] at ho1
          obtain ⟨h1, b', h2, h3, h4⟩ := ih (eb := eb.bump) (by exact hnb) h hw (keep_step hc hge ho1.2) hnd
          refine ⟨h1, b', ?_, h3, h4⟩
          rw [h2]
          have : decide (eb.dib + 1 ≥ 256) = false := decide_eq_false ho1.2
          simp only [this, Bool.or_false]

/-- The carried key is in the table: its entry is replaced in place. -/
theorem insertLoop_replace {n k : Nat} (hk : n = 2 ^ k) {s fuel i : Nat} {m : Tbl} {eb : Bucket}
    (hnb : m.nbuckets = n) (hf : s < fuel)
    (hpath : ∀ u, u ≤ s → eb.dib + u ≤ D m.buckets n (i + u)) (hpos : 1 ≤ eb.dib)
    (hbyte : ∀ j, (m.buckets (j % n)).dib < 256)
    (hne : ∀ u, u < s → ¬ (eb.hash = (m.buckets ((i + u) % n)).hash ∧
      eb.ent.key = (m.buckets ((i + u) % n)).ent.key))
    (hm : eb.hash = (m.buckets ((i + s) % n)).hash ∧ eb.ent.key = (m.buckets ((i + s) % n)).ent.key) :
    insertLoop fuel m (i % n) eb =
      some ({ m with
        entsize := sub64 m.entsize (m.buckets ((i + s) % n)).ent.size
        buckets := update m.buckets ((i + s) % n) { m.buckets ((i + s) % n) with ent := eb.ent } },
        some (m.buckets ((i + s) % n)).ent) := by
  induction s generalizing i fuel eb with
  | zero =>
    obtain ⟨f, rfl⟩ : ∃ f, fuel = f + 1 := ⟨fuel - 1, by omega⟩
    have h0 := hpath 0 (by omega)
    unfold D at h0
    simp only [Nat.add_zero] at h0 hm ⊢
    unfold insertLoop
    simp only []
    rw [if_neg (by omega), if_pos hm]
  | succ s ih =>
    obtain ⟨f, rfl⟩ : ∃ f, fuel = f + 1 := ⟨fuel - 1, by omega⟩
    have h0 := hpath 0 (by omega)
    have h1 := hpath (s + 1) (by omega)
    have hb := hbyte (i + (s + 1))
    have hne0 := hne 0 (by omega)
    unfold D at h0 h1
    simp only [Nat.add_zero] at h0 hne0
    have e : ∀ u, i + 1 + u = i + (u + 1) := fun u => by omega
    have hov : ¬ (eb.dib + 1 ≥ 256) := by omega
    have hbump := bump_of_lt hov
    unfold insertLoop
    simp only [Tbl.mask]
    rw [if_neg (by omega), if_neg hne0, if_neg (by omega),
      show (i % n + 1) &&& (m.nbuckets - 1) = (i + 1) % n from by rw [hnb, next_mask hk]]
    have hd : decide (eb.dib + 1 ≥ 256) = false := decide_eq_false hov
    rw [hd]
    simp only [Bool.or_false]
    have := ih (i := i + 1) (fuel := f) (eb := eb.bump) (by omega)
      (fun u hu => by rw [e, hbump]; have := hpath (u + 1) (by omega); simp only []; omega)
      (by rw [hbump]; simp)
      (fun u hu => by rw [e, hbump]; exact hne (u + 1) (by omega))
      (by rw [e, hbump]; exact hm)
    rw [this, e, hbump]

/-- The loop always stops when there is a free bucket; what it changes, whatever the table's state. -/
theorem insertLoop_stops {n k : Nat} (hk : n = 2 ^ k) {fuel t i : Nat} {m : Tbl} {eb : Bucket}
    (hnb : m.nbuckets = n) (ht : D m.buckets n (i + t) = 0) (hf : t < fuel) :
    ∃ m' old, insertLoop fuel m (i % n) eb = some (m', old) ∧
      m'.cap = m.cap ∧ m'.nbuckets = m.nbuckets ∧ m'.growat = m.growat ∧ m'.shrinkat = m.shrinkat ∧
      (old = none → m'.count = m.count + 1 ∧ m'.total = m.total + 1 ∧ m'.entsize = m.entsize ∧
        (cont m'.buckets n).card ≤ (cont m.buckets n).card + 1) ∧
      (∀ o, old = some o → m'.count = m.count ∧ m'.total = m.total ∧
        m'.entsize = sub64 m.entsize o.size ∧
        (cont m'.buckets n).card ≤ (cont m.buckets n).card) := by
  have hpos : 0 < n := by rw [hk]; exact Nat.two_pow_pos k
  induction fuel generalizing m i eb t with
  | zero => omega
  | succ f ih =>
    unfold insertLoop
    simp only [Tbl.mask]
    rw [show (i % n + 1) &&& (m.nbuckets - 1) = (i + 1) % n from by rw [hnb, next_mask hk]]
    have hlt := Nat.mod_lt i hpos
    split
    · rename_i h0
      refine ⟨_, _, rfl, rfl, rfl, rfl, rfl, fun _ => ⟨rfl, rfl, rfl, ?_⟩, by simp⟩
      have := congrArg Multiset.card (cont_update m.buckets hlt eb)
      rw [Multiset.card_add, Multiset.card_add, bc_card, bc_card, if_pos h0] at this
      split at this <;> (simp only []; omega)
    · rename_i h0
      split
      · refine ⟨_, _, rfl, rfl, rfl, rfl, rfl, by simp, ?_⟩
        intro o ho
        simp at ho
        subst ho
        refine ⟨rfl, rfl, rfl, ?_⟩
        have := congrArg Multiset.card (cont_update m.buckets hlt { m.buckets (i % n) with ent := eb.ent })
        rw [Multiset.card_add, Multiset.card_add, bc_card, bc_card, if_neg h0] at this
        simp only [h0, if_false] at this
        simp only []
        omega
      · have ht0 : t ≠ 0 := by
          rintro rfl
          exact h0 ht
        have hidx : i + 1 + (t - 1) = i + t := by omega
        split
        · rename_i hlt2
          have hcard := congrArg Multiset.card (cont_update m.buckets hlt eb)
          rw [Multiset.card_add, Multiset.card_add, bc_card, bc_card, if_neg h0, if_neg (by omega)] at hcard
          have hne : (i + t) % n ≠ i % n := by
            intro hh
            rw [D_congr hh] at ht
            exact h0 ht
          obtain ⟨m', old, hr, h1, h2, h3, h4, h5, h6⟩ := ih
            (m := { m with buckets := update m.buckets (i % n) eb
                           ovf := m.ovf || decide ((m.buckets (i % n)).dib + 1 ≥ 256) })
            (i := i + 1) (t := t - 1) (eb := (m.buckets (i % n)).bump) hnb
            (by simp only []; rw [hidx, D_update, if_neg hne]; exact ht) (by omega)
          refine ⟨m', old, hr, h1, h2, h3, h4, ?_, ?_⟩
          · intro ho
            obtain ⟨a, b, c, d⟩ := h5 ho
            exact ⟨a, b, c, by simp only [] at d; omega⟩
          · intro o ho
            obtain ⟨a, b, c, d⟩ := h6 o ho
            exact ⟨a, b, c, by simp only [] at d; omega⟩
        · obtain ⟨m', old, hr, h1, h2, h3, h4, h5, h6⟩ := ih
            (m := { m with ovf := m.ovf || decide (eb.dib + 1 ≥ 256) })
            (i := i + 1) (t := t - 1) (eb := eb.bump) hnb (by rw [hidx]; exact ht) (by omega)
          exact ⟨m', old, hr, h1, h2, h3, h4, h5, h6⟩

end Verif.Map
