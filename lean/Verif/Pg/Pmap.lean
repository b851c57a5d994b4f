import Mathlib.Tactic.Common
import Mathlib.Data.List.Count
import Verif.Pg.Model

/-!
The set of parameter numbers behaves like a list of the numbers inserted, for every hash function.
-/

namespace Verif.Pg

/-- The numbers are found by probing from their hash value. -/
def Reach (hash : Nat → Nat) (bs : List Nat) (p : Nat) : Prop :=
  ∃ k, k < bs.length ∧ bs.getD ((hash p + k) % bs.length) 0 = p ∧ ∀ j, j < k → bs.getD ((hash p + j) % bs.length) 0 ≠ 0

/-- The buckets contain exactly the numbers of `S`, each of which can be found. -/
def Table (hash : Nat → Nat) (bs S : List Nat) : Prop :=
  0 ∉ S ∧ (∀ p, p ≠ 0 → (p ∈ bs ↔ p ∈ S)) ∧ (∀ p ∈ S, Reach hash bs p) ∧ S.length + bs.count 0 = bs.length ∧ 0 < bs.length

theorem mem_of_getD {bs : List Nat} {i p : Nat} (h : bs.getD i 0 = p) (hp : p ≠ 0) : p ∈ bs := by
  rw [List.getD_eq_getElem?_getD] at h
  cases hg : bs[i]? with
  | none => rw [hg] at h; exact absurd h.symm hp
  | some x => rw [hg] at h; simp at h; subst h; exact List.mem_of_getElem? hg

/-- Some bucket on the way from any position is free. -/
theorem free_ahead {bs : List Nat} (h0 : 0 ∈ bs) (s : Nat) : ∃ k, k < bs.length ∧ bs.getD ((s + k) % bs.length) 0 = 0 := by
  obtain ⟨i, hi, he⟩ := List.getElem_of_mem h0
  have hn : 0 < bs.length := by omega
  refine ⟨(i + bs.length - s % bs.length) % bs.length, Nat.mod_lt _ hn, ?_⟩
  have hs := Nat.mod_lt s hn
  have : (s + (i + bs.length - s % bs.length) % bs.length) % bs.length = i := by
    rw [Nat.add_mod_mod, Nat.add_mod]
    by_cases hc : s % bs.length ≤ i
    · have e1 : i + bs.length - s % bs.length = (i - s % bs.length) + bs.length := by omega
      rw [e1, Nat.add_mod_right, Nat.mod_eq_of_lt (by omega : i - s % bs.length < bs.length),
        Nat.mod_eq_of_lt (by omega)]
      omega
    · rw [Nat.mod_eq_of_lt (by omega : i + bs.length - s % bs.length < bs.length)]
      have e2 : s % bs.length + (i + bs.length - s % bs.length) = i + bs.length := by omega
      rw [e2, Nat.add_mod_right, Nat.mod_eq_of_lt hi]
  rw [this, List.getD_eq_getElem?_getD, List.getElem?_eq_getElem hi, he]; rfl

theorem first_free {bs : List Nat} (h0 : 0 ∈ bs) (s : Nat) : ∃ k, k < bs.length ∧ bs.getD ((s + k) % bs.length) 0 = 0 ∧
    ∀ j, j < k → bs.getD ((s + j) % bs.length) 0 ≠ 0 := by
  classical
  have hex := free_ahead h0 s
  obtain ⟨h1, h2⟩ := Nat.find_spec hex
  refine ⟨Nat.find hex, h1, h2, ?_⟩
  intro j hj hc
  exact Nat.find_min hex hj ⟨by omega, hc⟩

theorem insert0Loop_eq (bs : List Nat) (p s k : Nat) (hk : k < bs.length) (hz : bs.getD ((s + k) % bs.length) 0 = 0)
    (hnz : ∀ j, j < k → bs.getD ((s + j) % bs.length) 0 ≠ 0) (d : Nat) (hd : d ≤ k) :
    insert0Loop bs p (bs.length - d) ((s + d) % bs.length) = some (bs.set ((s + k) % bs.length) p) := by
  induction hm : k - d generalizing d with
  | zero =>
    have : d = k := by omega
    subst this
    obtain ⟨f, hf⟩ : ∃ f, bs.length - d = f + 1 := ⟨bs.length - d - 1, by omega⟩
    rw [hf, insert0Loop, if_pos hz]
  | succ m ih =>
    obtain ⟨f, hf⟩ : ∃ f, bs.length - d = f + 1 := ⟨bs.length - d - 1, by omega⟩
    rw [hf, insert0Loop, if_neg (hnz d (by omega)), Nat.mod_add_mod]
    have := ih (d + 1) (by omega) (by omega)
    rw [show bs.length - (d + 1) = f by omega] at this
    exact this

theorem getD_set {bs : List Nat} {i j p : Nat} (hi : i < bs.length) : (bs.set i p).getD j 0 = if j = i then p else bs.getD j 0 := by
  rw [List.getD_eq_getElem?_getD, List.getElem?_set, List.getD_eq_getElem?_getD]
  by_cases h : i = j
  · subst h; simp [hi]
  · rw [if_neg h, if_neg (Ne.symm h)]

theorem insert0_table {hash : Nat → Nat} {bs S : List Nat} {p : Nat} (h : Table hash bs S) (hp : p ≠ 0) (h0 : 0 ∈ bs) :
    ∃ bs', insert0 hash bs p = some bs' ∧ Table hash bs' (p :: S) ∧ bs'.length = bs.length := by
  obtain ⟨hS0, hmem, hreach, hcount, hn⟩ := h
  obtain ⟨k, hk, hz, hnz⟩ := first_free h0 (hash p)
  have hi : (hash p + k) % bs.length < bs.length := Nat.mod_lt _ hn
  refine ⟨bs.set ((hash p + k) % bs.length) p, ?_, ⟨?_, ?_, ?_, ?_, ?_⟩, ?_⟩
  · have := insert0Loop_eq bs p (hash p) k hk hz hnz 0 (by omega)
    simpa [insert0] using this
  · simp [hS0, Ne.symm hp]
  · intro q hq
    have hz' : bs[(hash p + k) % bs.length] = 0 := by
      rw [List.getD_eq_getElem?_getD, List.getElem?_eq_getElem hi] at hz; simpa using hz
    constructor
    · intro hm
      rcases List.mem_or_eq_of_mem_set hm with hm | hm
      · exact List.mem_cons_of_mem _ ((hmem q hq).1 hm)
      · rw [hm]; exact List.mem_cons_self ..
    · intro hm
      rcases List.mem_cons.1 hm with rfl | hm
      · exact List.mem_set hi q
      · have := (hmem q hq).2 hm
        obtain ⟨j, hj, he⟩ := List.getElem_of_mem this
        have hne : (hash p + k) % bs.length ≠ j := by
          rintro rfl; rw [hz'] at he; exact hq he.symm
        have : (bs.set ((hash p + k) % bs.length) p)[j]'(by simpa using hj) = q := by
          rw [List.getElem_set_ne hne]; exact he
        rw [← this]; exact List.getElem_mem _
  · intro q hq
    have hlen : (bs.set ((hash p + k) % bs.length) p).length = bs.length := List.length_set
    rcases List.mem_cons.1 hq with rfl | hq
    · refine ⟨k, by rw [hlen]; exact hk, ?_, ?_⟩
      · rw [hlen, getD_set hi, if_pos rfl]
      · intro j hj
        rw [hlen, getD_set hi]
        split
        · exact hp
        · exact hnz j hj
    · obtain ⟨k', hk', hq', hnz'⟩ := hreach q hq
      have hq0 : q ≠ 0 := by rintro rfl; exact hS0 hq
      refine ⟨k', by rw [hlen]; exact hk', ?_, ?_⟩
      · rw [hlen, getD_set hi, if_neg]
        · exact hq'
        · intro hc; rw [hc, hz] at hq'; exact hq0 hq'.symm
      · intro j hj
        rw [hlen, getD_set hi]
        split
        · exact hp
        · exact hnz' j hj
  · rw [List.count_set hi, List.length_set]
    have hz' : bs[(hash p + k) % bs.length] = 0 := by
      rw [List.getD_eq_getElem?_getD, List.getElem?_eq_getElem hi] at hz; simpa using hz
    have hpos : 0 < bs.count 0 := List.count_pos_iff.2 h0
    rw [hz']
    simp [hp]
    omega
  · rw [List.length_set]; exact hn
  · exact List.length_set

theorem existsLoop_true (bs : List Nat) (p s k : Nat) (hk : k < bs.length) (hp : p ≠ 0) (hz : bs.getD ((s + k) % bs.length) 0 = p)
    (hnz : ∀ j, j < k → bs.getD ((s + j) % bs.length) 0 ≠ 0) (d : Nat) (hd : d ≤ k) :
    existsLoop bs p (bs.length - d) ((s + d) % bs.length) = some true := by
  induction hm : k - d generalizing d with
  | zero =>
    have : d = k := by omega
    subst this
    obtain ⟨f, hf⟩ : ∃ f, bs.length - d = f + 1 := ⟨bs.length - d - 1, by omega⟩
    rw [hf, existsLoop, if_neg (by rw [hz]; exact hp), if_pos hz]
  | succ m ih =>
    obtain ⟨f, hf⟩ : ∃ f, bs.length - d = f + 1 := ⟨bs.length - d - 1, by omega⟩
    rw [hf, existsLoop, if_neg (hnz d (by omega)), Nat.mod_add_mod]
    split
    · rfl
    · have := ih (d + 1) (by omega) (by omega)
      rw [show bs.length - (d + 1) = f by omega] at this
      exact this

theorem existsLoop_false (bs : List Nat) (p s k : Nat) (hk : k < bs.length) (hz : bs.getD ((s + k) % bs.length) 0 = 0)
    (hne : ∀ i, bs.getD i 0 ≠ 0 → bs.getD i 0 ≠ p) (hnz : ∀ j, j < k → bs.getD ((s + j) % bs.length) 0 ≠ 0) (d : Nat) (hd : d ≤ k) :
    existsLoop bs p (bs.length - d) ((s + d) % bs.length) = some false := by
  induction hm : k - d generalizing d with
  | zero =>
    have : d = k := by omega
    subst this
    obtain ⟨f, hf⟩ : ∃ f, bs.length - d = f + 1 := ⟨bs.length - d - 1, by omega⟩
    rw [hf, existsLoop, if_pos hz]
  | succ m ih =>
    obtain ⟨f, hf⟩ : ∃ f, bs.length - d = f + 1 := ⟨bs.length - d - 1, by omega⟩
    have hn := hnz d (by omega)
    rw [hf, existsLoop, if_neg hn, if_neg (hne _ hn), Nat.mod_add_mod]
    have := ih (d + 1) (by omega) (by omega)
    rw [show bs.length - (d + 1) = f by omega] at this
    exact this

/-- The map stands for the list `S` of the numbers inserted. -/
def Pmap.Is (hash : Nat → Nat) (m : Pmap) (S : List Nat) : Prop :=
  Table hash m.buckets S ∧ m.count = S.length ∧ m.count ≤ m.buckets.length / 2 + m.buckets.length / 4 ∧ 8 ≤ m.buckets.length

theorem Pmap.Is.zero {hash : Nat → Nat} {m : Pmap} {S : List Nat} (h : m.Is hash S) : 0 ∈ m.buckets := by
  obtain ⟨⟨_, _, _, h1, _⟩, h2, h3, h4⟩ := h
  apply List.count_pos_iff.1
  omega

theorem table_empty (hash : Nat → Nat) (n : Nat) (hn : 0 < n) : Table hash (List.replicate n 0) [] := by
  refine ⟨by simp, ?_, by simp, by simp, by simpa using hn⟩
  intro p hp
  simp [hp]

theorem Pmap.init_is (hash : Nat → Nat) : Pmap.init.Is hash [] := ⟨table_empty hash 8 (by decide), rfl, by simp [Pmap.init], by simp [Pmap.init]⟩

theorem Pmap.exists_iff {hash : Nat → Nat} {m : Pmap} {S : List Nat} (h : m.Is hash S) (p : Nat) (hp : p ≠ 0) :
    m.exists hash p = some (decide (p ∈ S)) := by
  have h0 := h.zero
  obtain ⟨⟨hS0, hmem, hreach, hcount, hn⟩, _, _, _⟩ := h
  unfold Pmap.exists
  by_cases hc : p ∈ S
  · obtain ⟨k, hk, hq, hnz⟩ := hreach p hc
    have := existsLoop_true m.buckets p (hash p) k hk hp hq hnz 0 (by omega)
    simpa [hc] using this
  · obtain ⟨k, hk, hz, hnz⟩ := first_free h0 (hash p)
    have := existsLoop_false m.buckets p (hash p) k hk hz (by
      intro i hi he
      exact hc ((hmem p hp).1 (mem_of_getD he hp))) hnz 0 (by omega)
    simpa [hc] using this

theorem rehash_table {hash : Nat → Nat} (l bs S : List Nat) (h : Table hash bs S) (hz : (l.filter (· ≠ 0)).length < bs.count 0) :
    ∃ bs' S', l.foldlM (fun bs p => if p ≠ 0 then insert0 hash bs p else some bs) bs = some bs' ∧ Table hash bs' S' ∧
      bs'.length = bs.length ∧ (∀ p, p ∈ S' ↔ p ∈ S ∨ (p ≠ 0 ∧ p ∈ l)) ∧ S'.length = S.length + (l.filter (· ≠ 0)).length := by
  induction l generalizing bs S with
  | nil => exact ⟨bs, S, rfl, h, rfl, by simp, by simp⟩
  | cons p l ih =>
    by_cases hp : p = 0
    · subst hp
      obtain ⟨bs', S', h1, h2, h3, h4, h5⟩ := ih bs S h (by simpa using hz)
      refine ⟨bs', S', by simpa using h1, h2, h3, ?_, by simpa using h5⟩
      intro q
      rw [h4]
      constructor
      · rintro (a | ⟨a, b⟩)
        · exact Or.inl a
        · exact Or.inr ⟨a, List.mem_cons_of_mem _ b⟩
      · rintro (a | ⟨a, b⟩)
        · exact Or.inl a
        · rcases List.mem_cons.1 b with b | b
          · exact absurd b a
          · exact Or.inr ⟨a, b⟩
    · have hfl : (List.filter (· ≠ 0) (p :: l)).length = (l.filter (· ≠ 0)).length + 1 := by
        rw [List.filter_cons_of_pos (by simpa using hp)]; rfl
      rw [hfl] at hz
      have h0 : 0 ∈ bs := List.count_pos_iff.1 (by omega)
      obtain ⟨bs1, h1, h2, h3⟩ := insert0_table h hp h0
      have hc : bs1.count 0 + 1 = bs.count 0 := by
        have a := h.2.2.2.1
        have b := h2.2.2.2.1
        rw [h3, List.length_cons] at b
        omega
      obtain ⟨bs', S', g1, g2, g3, g4, g5⟩ := ih bs1 (p :: S) h2 (by omega)
      refine ⟨bs', S', ?_, g2, by rw [g3, h3], ?_, ?_⟩
      · rw [List.foldlM_cons, if_pos hp, h1]; exact g1
      · intro q
        rw [g4, List.mem_cons, List.mem_cons]
        constructor
        · rintro ((rfl | a) | ⟨a, b⟩)
          · exact Or.inr ⟨hp, Or.inl rfl⟩
          · exact Or.inl a
          · exact Or.inr ⟨a, Or.inr b⟩
        · rintro (a | ⟨a, rfl | b⟩)
          · exact Or.inl (Or.inr a)
          · exact Or.inl (Or.inl rfl)
          · exact Or.inr ⟨a, b⟩
      · rw [g5, hfl, List.length_cons]; omega

/-- A table only depends on which numbers it stands for, and how many. -/
theorem Table.congr {hash : Nat → Nat} {bs S S' : List Nat} (h : Table hash bs S) (hm : ∀ p, p ∈ S' ↔ p ∈ S) (hl : S'.length = S.length) :
    Table hash bs S' := by
  obtain ⟨h1, h2, h3, h4, h5⟩ := h
  exact ⟨by rw [hm]; exact h1, fun p hp => by rw [hm]; exact h2 p hp, fun p hp => h3 p ((hm p).1 hp), by rw [hl]; exact h4, h5⟩

theorem filter_nonzero_length (bs : List Nat) : (bs.filter (· ≠ 0)).length + bs.count 0 = bs.length := by
  induction bs with
  | nil => rfl
  | cons b bs ih =>
    by_cases h : b = 0
    · subst h; simp at ih ⊢; omega
    · rw [List.filter_cons_of_pos (by simpa using h), List.count_cons_of_ne h]
      simp at ih ⊢; omega

theorem Pmap.grow_is {hash : Nat → Nat} {m : Pmap} {S : List Nat} (h : m.Is hash S) :
    ∃ m', m.grow hash = some m' ∧ m'.Is hash S ∧ m'.buckets.length = 2 * m.buckets.length := by
  obtain ⟨ht, h2, h3, h4⟩ := h
  obtain ⟨hS0, hmem, hreach, hcount, hn⟩ := ht
  have hfl := filter_nonzero_length m.buckets
  obtain ⟨bs', S', g1, g2, g3, g4, g5⟩ := rehash_table m.buckets (List.replicate (m.buckets.length * 2) 0) []
    (table_empty hash _ (by omega)) (by simp only [List.count_replicate_self]; omega)
  simp only [List.length_replicate] at g3
  refine ⟨⟨m.count, bs'⟩, ?_, ⟨?_, h2, ?_, ?_⟩, ?_⟩
  · unfold Pmap.grow; rw [g1]; rfl
  · refine g2.congr ?_ ?_
    · intro p
      rw [g4]
      constructor
      · intro hp
        have : p ≠ 0 := by rintro rfl; exact hS0 hp
        exact Or.inr ⟨this, (hmem p this).2 hp⟩
      · rintro (hp | ⟨hp, hp2⟩)
        · simp at hp
        · exact (hmem p hp).1 hp2
    · rw [g5]; simp only [List.length_nil]; omega
  · simp only [g3]; omega
  · simp only [g3]; omega
  · simp only [g3]; omega

theorem Pmap.insert_is {hash : Nat → Nat} {m : Pmap} {S : List Nat} (h : m.Is hash S) (p : Nat) (hp : p ≠ 0) :
    ∃ m', m.insert hash p = some m' ∧ m'.Is hash (p :: S) := by
  have key : ∀ m' : Pmap, m'.Is hash S → m'.count < m'.buckets.length / 2 + m'.buckets.length / 4 →
      ∃ m'', ((insert0 hash m'.buckets p).map fun bs => (⟨m'.count + 1, bs⟩ : Pmap)) = some m'' ∧ m''.Is hash (p :: S) := by
    intro m' hm hlt
    obtain ⟨bs', h1, h2, h3⟩ := insert0_table hm.1 hp hm.zero
    refine ⟨⟨m'.count + 1, bs'⟩, by rw [h1]; rfl, h2, ?_, ?_, ?_⟩
    · simp [hm.2.1]
    · simp only [h3]; omega
    · simp only [h3]; exact hm.2.2.2
  unfold Pmap.insert
  split
  · obtain ⟨m1, g1, g2, g3⟩ := Pmap.grow_is h
    rw [g1]
    simp only [Option.bind_some]
    refine key m1 g2 ?_
    have := g2.2.1; have := h.2.1; have := h.2.2.1; have := h.2.2.2
    omega
  · simp only [Option.bind_some]
    refine key m h ?_
    have := h.2.2.1
    omega

theorem checkParams_iff {hash : Nat → Nat} {m : Pmap} {S : List Nat} (h : m.Is hash S) (k : Nat) :
    ∃ b, checkParams hash m k = some b ∧ (b = true ↔ ∀ i, 1 ≤ i → i ≤ k → i ∈ S) := by
  induction k with
  | zero => exact ⟨true, rfl, by simp; intro i h1 h2; omega⟩
  | succ k ih =>
    obtain ⟨b, h1, h2⟩ := ih
    rw [checkParams, h1]
    cases b with
    | true =>
      simp only []
      rw [Pmap.exists_iff h _ (by omega)]
      refine ⟨_, rfl, ?_⟩
      rw [decide_eq_true_eq]
      constructor
      · intro hk i h3 h4
        rcases Nat.lt_or_ge i (k + 1) with h5 | h5
        · exact h2.1 rfl i h3 (by omega)
        · have : i = k + 1 := by omega
          rw [this]; exact hk
      · intro hk; exact hk _ (by omega) (Nat.le_refl _)
    | false =>
      refine ⟨false, rfl, ?_⟩
      simp only [Bool.false_eq_true, false_iff] at h2 ⊢
      intro hk; exact h2 fun i h3 h4 => hk i h3 (by omega)

end Verif.Pg
