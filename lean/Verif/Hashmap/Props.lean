import Mathlib.Combinatorics.Pigeonhole
import Mathlib.Data.Fintype.Pi
import Mathlib.Data.Fintype.BigOperators
import Verif.Hashmap.Tower
import Verif.Pg.Props

/-!
C89: a prepared statement or portal is found under its name.  C90: what it holds is freed once.
-/

namespace Verif.Hashmap

open Function

variable {α : Type} [Inhabited α]

/-! ### The items inserted one after the other -/

/-- What was kept last under a name. -/
def latest (ins : List (Bytes × α)) (name : Bytes) : Option α := ((ins.filter fun x => x.1 = name).getLast?).map (·.2)

/-- The different names in use. -/
def names (ins : List (Bytes × α)) : Finset Bytes := (ins.map (·.1)).toFinset

/-- `portal_insert` or `statement_insert` called for each item: the table afterwards and the items freed on the way
(`/repo/src/postgres.c:258-285`). -/
def insertAll (c : Ctx) (ins : List (Bytes × α)) : Option (Option (Tbl α) × List (Bytes × α)) :=
  ins.foldl (fun acc e => acc.bind fun a => (insert c a.1 e).map fun r => (r.1, a.2 ++ r.2.toList)) (some (none, []))

theorem insertAll_snoc (c : Ctx) (ins : List (Bytes × α)) (e : Bytes × α) :
    insertAll c (ins ++ [e]) = (insertAll c ins).bind fun a => (insert c a.1 e).map fun r => (r.1, a.2 ++ r.2.toList) := by
  unfold insertAll
  rw [List.foldl_append]
  rfl

theorem latest_snoc (ins : List (Bytes × α)) (e : Bytes × α) (name : Bytes) :
    latest (ins ++ [e]) name = if e.1 = name then some e.2 else latest ins name := by
  unfold latest
  rw [List.filter_append]
  by_cases h : e.1 = name <;> simp [h]

theorem names_snoc (ins : List (Bytes × α)) (e : Bytes × α) : names (ins ++ [e]) = Insert.insert e.1 (names ins) := by
  ext x
  simp [names]

theorem latest_of_mem {ins : List (Bytes × α)} {x : Bytes × α} (h : x ∈ ins) : ∃ v, latest ins x.1 = some v := by
  induction ins using List.reverseRecOn with
  | nil => simp at h
  | append_singleton ins e ih =>
    rw [latest_snoc]
    split
    · exact ⟨_, rfl⟩
    · rename_i hne
      rcases List.mem_append.1 h with h | h
      · exact ih h
      · rw [List.mem_singleton.1 h] at hne; exact absurd rfl hne

/-- The table stands for what was inserted. -/
structure Holds (c : Ctx) (m : Tbl α) (ins freed : List (Bytes × α)) : Prop where
  inv : Inv c m
  ovf : m.ovf = false
  mem : ∀ x, x ∈ m.cont ↔ latest ins x.1 = some x.2
  all : (freed : Multiset (Bytes × α)) + m.cont = (ins : Multiset (Bytes × α))

theorem holds_new0 (c : Ctx) : Holds c (new0 : Tbl α) [] [] :=
  ⟨inv_new0, rfl, by intro x; simp [new0, cont_new, latest], by simp [new0, cont_new]⟩

theorem Holds.count_le {c : Ctx} {m : Tbl α} {ins freed : List (Bytes × α)} (h : Holds c m ins freed) :
    m.count = (names ins).card := by
  rw [h.inv.cnt h.ovf]
  have hnd := h.inv.nodup h.ovf
  have : names ins = (m.cont.map Prod.fst).toFinset := by
    ext n
    simp only [names, List.mem_toFinset, List.mem_map, Multiset.mem_toFinset, Multiset.mem_map]
    constructor
    · rintro ⟨x, hx, rfl⟩
      obtain ⟨v, hv⟩ := latest_of_mem hx
      exact ⟨(x.1, v), (h.mem _).2 hv, rfl⟩
    · rintro ⟨x, hx, rfl⟩
      refine ⟨x, ?_, rfl⟩
      have : x ∈ (ins : Multiset (Bytes × α)) := by rw [← h.all]; exact Multiset.mem_add.2 (Or.inr hx)
      exact this
  rw [this, Multiset.toFinset_card_of_nodup hnd, Multiset.card_map]

theorem Holds.step {c : Ctx} {m : Tbl α} {ins freed : List (Bytes × α)} (h : Holds c m ins freed) (e : Bytes × α)
    (hn : (names (ins ++ [e])).card ≤ 65535) :
    ∃ m' old, set c m e = some (m', old) ∧ Holds c m' (ins ++ [e]) (freed ++ old.toList) := by
  obtain ⟨m', old, hs, hi, _, hc, heff⟩ := set_spec (e := e) h.inv
  have hcnt := h.count_le
  have hcnt' : m.count ≤ 65535 := by
    rw [hcnt]
    refine le_trans (Finset.card_le_card ?_) hn
    rw [names_snoc]
    exact Finset.subset_insert _ _
  have ho : m'.ovf = false := by
    by_cases hex : ∃ x ∈ m.cont, x.1 = e.1
    · exact set_present h.inv h.ovf hcnt' hex hs
    · refine set_small h.inv h.ovf ?_ hs
      have hni : e.1 ∉ names ins := by
        intro hin
        apply hex
        obtain ⟨x, hx, hxe⟩ := List.mem_map.1 (List.mem_toFinset.1 hin)
        obtain ⟨v, hv⟩ := latest_of_mem hx
        exact ⟨(x.1, v), (h.mem _).2 hv, hxe⟩
      rw [names_snoc, Finset.card_insert_of_notMem hni] at hn
      omega
  have he := heff ho
  refine ⟨m', old, hs, hi, ho, ?_, ?_⟩
  · intro x
    rw [latest_snoc]
    cases old with
    | none =>
      obtain ⟨h1, h2⟩ := he
      rw [h2, Multiset.mem_add, Multiset.mem_singleton]
      split
      · rename_i hx
        constructor
        · rintro (h3 | h3)
          · exact absurd hx.symm (h1 x h3)
          · rw [h3]
        · intro h3
          right
          exact Prod.ext hx.symm (by simpa using h3.symm)
      · rename_i hx
        rw [← h.mem]
        constructor
        · rintro (h3 | h3)
          · exact h3
          · exact absurd (by rw [h3]) hx
        · exact Or.inl
    | some o =>
      obtain ⟨h1, h2, h3⟩ := he
      have hmem : ∀ y, (y ∈ m'.cont ∨ y = o) ↔ (y ∈ m.cont ∨ y = e) := by
        intro y
        have := congrArg (fun s => y ∈ s) h3
        simpa using this
      have hem : e ∈ m'.cont := by
        rcases (hmem e).2 (Or.inr rfl) with h4 | h4
        · exact h4
        · have : m'.cont = m.cont := by rw [h4] at h3; exact add_right_cancel h3
          rw [this, h4]; exact h1
      split
      · rename_i hx
        constructor
        · intro h4
          have hnd := hi.nodup ho
          have := Multiset.inj_on_of_nodup_map hnd x h4 e hem hx.symm
          rw [this]
        · intro h4
          have : x = e := Prod.ext hx.symm (by simpa using h4.symm)
          rw [this]; exact hem
      · rename_i hx
        rw [← h.mem]
        have hxo : x ≠ o := by rintro rfl; exact hx h2.symm
        have hxe : x ≠ e := by rintro rfl; exact hx rfl
        have := hmem x
        simp only [hxo, hxe, or_false] at this
        exact this
  · rw [← Multiset.coe_add, ← Multiset.coe_add, ← h.all]
    cases old with
    | none => rw [he.2]; simp [add_assoc]
    | some o =>
      have := he.2.2
      simp only [Option.toList_some, Multiset.coe_singleton, add_assoc]
      congr 1
      rw [add_comm ({o} : Multiset (Bytes × α)), this]

theorem insertAll_holds (c : Ctx) (ins : List (Bytes × α)) (hn : (names ins).card ≤ 65535) :
    ∃ t freed, insertAll c ins = some (t, freed) ∧ Holds c (t.getD new0) ins freed ∧ (t = none → ins = []) := by
  induction ins using List.reverseRecOn with
  | nil => exact ⟨none, [], rfl, holds_new0 c, fun _ => rfl⟩
  | append_singleton ins e ih =>
    obtain ⟨t, freed, h1, h2, _⟩ := ih (le_trans (Finset.card_le_card (by rw [names_snoc]; exact Finset.subset_insert _ _)) hn)
    obtain ⟨m', old, h3, h4⟩ := h2.step e hn
    refine ⟨some m', freed ++ old.toList, ?_, h4, by simp⟩
    rw [insertAll_snoc, h1]
    simp [insert, h3]

theorem coe_iter (m : Tbl α) : (iter m : Multiset (Bytes × α)) = m.cont := by
  unfold iter Tbl.cont cont
  induction m.nbuckets with
  | zero => simp
  | succ n ih =>
    rw [List.range_succ, List.map_append, List.filterMap_append, ← Multiset.coe_add, ih, Finset.sum_range_succ]
    congr 1
    unfold bc
    by_cases h : (m.buckets n).dib = 0 <;> simp [h]

theorem Holds.get {c : Ctx} {m : Tbl α} {ins freed : List (Bytes × α)} (h : Holds c m ins freed) (name : Bytes) :
    get c m name = some (latest ins name) := by
  obtain ⟨r, hr, h1, h2⟩ := getBucket_spec h.inv name
  unfold Hashmap.get
  rw [hr]
  cases r with
  | some i =>
    obtain ⟨g1, g2, g3⟩ := h1 i rfl
    have := (h.mem _).1 (mem_cont.2 ⟨i, g1, g2, rfl⟩)
    rw [g3] at this
    simp [this]
  | none =>
    have := h2 rfl h.ovf
    cases hl : latest ins name with
    | none => rfl
    | some v => exact absurd rfl (this (name, v) ((h.mem (name, v)).2 hl))

/-! ### C89 -/

/-- The full claim: whatever statements (portals) a client has made, with legal names, each name stands for the one made last under it,
and for nothing if none was made. -/
def Found (α : Type) [Inhabited α] (c : Ctx) (ins : List (Bytes × α)) : Prop :=
  (∀ x ∈ ins, Pg.Name x.1) → ∃ t freed, insertAll c ins = some (t, freed) ∧
    ∀ name, Pg.Name name → lookup c t name = some (latest ins name)

/-- C89: it holds while a connection uses fewer than 65536 names. -/
theorem found_partial (c : Ctx) (ins : List (Bytes × α)) (hn : (names ins).card < 65536) : Found α c ins := by
  intro _
  obtain ⟨t, freed, h1, h2, h3⟩ := insertAll_holds c ins (by omega)
  refine ⟨t, freed, h1, ?_⟩
  intro name hname
  unfold lookup
  cases t with
  | none => rw [h3 rfl]; rfl
  | some m =>
    simp only []
    rw [if_neg (by have := hname.1; omega)]
    exact h2.get name

/-- Two names, one of them used twice. -/
example : (names [([97], 1), ([98], 2), ([97], 3)] : Finset Bytes).card < 65536 ∧ latest [([97], 1), ([98], 2), ([97], 3)] [97] = some 3 := by decide

/-- The same with the names of the extended query protocol's model: what `Verif.Pg` looks up in its lists of statements and portals is
what the hash map returns. -/
theorem pg_lookup_partial (c : Ctx) (l : List (Bytes × α)) (hn : (names l).card < 65536) (hl : ∀ x ∈ l, Pg.Name x.1) (name : Bytes)
    (hname : 0 ∉ name) :
    ∃ t freed, insertAll c l.reverse = some (t, freed) ∧ lookup c t name = some (Pg.lookupName l name) := by
  have hn' : (names l.reverse).card < 65536 := by
    have : names l.reverse = names l := by ext x; simp [names]
    rw [this]; exact hn
  obtain ⟨t, freed, h1, h2⟩ := found_partial c l.reverse hn' (fun x hx => hl x (List.mem_reverse.1 hx))
  refine ⟨t, freed, h1, ?_⟩
  unfold Pg.lookupName
  split
  · rename_i hlen
    unfold lookup
    cases t with
    | none => rfl
    | some m => simp only []; rw [if_pos hlen]
  · rename_i hlen
    rw [h2 name ⟨by omega, hname⟩]
    congr 1
    clear h1 h2 hn' hl hn
    induction l with
    | nil => rfl
    | cons x l ih =>
      rw [List.reverse_cons, latest_snoc, List.lookup_cons]
      by_cases hx : x.1 = name
      · simp [hx]
      · rw [if_neg hx, ih]
        have : (name == x.1) = false := by simp; exact fun h => hx h.symm
        simp [this]

/-! ### 65536 names with the same hash -/

/-- Sixteen letters from A to P. -/
def letters (f : Fin 16 → Fin 16) : Bytes := List.ofFn fun i => UInt8.ofNat (65 + (f i).val)

theorem letters_inj : Function.Injective letters := by
  intro f g h
  have h1 := List.ofFn_injective h
  funext i
  have h2 := congrArg UInt8.toNat (congrFun h1 i)
  have := (f i).isLt
  have := (g i).isLt
  rw [UInt8.toNat_ofNat_of_lt' (by show _ < 256; omega), UInt8.toNat_ofNat_of_lt' (by show _ < 256; omega)] at h2
  exact Fin.ext (by omega)

theorem letters_name (f : Fin 16 → Fin 16) : Pg.Name (letters f) := by
  refine ⟨by simp [letters], ?_⟩
  intro h
  obtain ⟨i, hi⟩ := List.mem_ofFn.1 h
  have h2 := congrArg UInt8.toNat hi
  have := (f i).isLt
  rw [UInt8.toNat_ofNat_of_lt' (by show _ < 256; omega)] at h2
  simp at h2

/-- Whatever the hash function, 65536 legal names have the same hash. -/
theorem collision (c : Ctx) : ∃ l : List Bytes, l.length = 65536 ∧ l.Nodup ∧ (∀ n ∈ l, Pg.Name n) ∧
    ∃ h, ∀ n ∈ l, c.hash48 n = h := by
  classical
  obtain ⟨h, _, hh⟩ := Finset.exists_lt_card_fiber_of_mul_lt_card_of_maps_to
    (s := (Finset.univ : Finset (Fin 16 → Fin 16))) (t := Finset.range (2 ^ 48)) (f := fun f => c.hash48 (letters f)) (n := 65535)
    (fun f _ => Finset.mem_range.2 (Nat.mod_lt _ (by norm_num)))
    (by rw [Finset.card_range, Finset.card_univ, Fintype.card_fun, Fintype.card_fin]; norm_num)
  obtain ⟨s, hs, hc⟩ := Finset.exists_subset_card_eq (n := 65536) hh
  refine ⟨s.toList.map letters, by rw [List.length_map, Finset.length_toList, hc], ?_, ?_, h, ?_⟩
  · exact (Finset.nodup_toList s).map letters_inj
  · intro n hn
    obtain ⟨f, _, rfl⟩ := List.mem_map.1 hn
    exact letters_name f
  · intro n hn
    obtain ⟨f, hf, rfl⟩ := List.mem_map.1 hn
    exact (Finset.mem_filter.1 (hs (Finset.mem_toList.1 hf))).2

/-- What happens with such names, when different things are kept under them. -/
theorem last_lost (c : Ctx) (v : α) : ∃ (ins : List (Bytes × α)) (e : Bytes × α), (∀ x ∈ ins ++ [e], Pg.Name x.1) ∧
    ins.length = 65535 ∧ e.2 = v ∧ e ∉ ins ∧ ∃ m, insertAll c (ins ++ [e]) = some (some m, []) ∧ getBucket c m e.1 = some none ∧
      m.cont = (ins : Multiset (Bytes × α)) := by
  obtain ⟨l, h1, h2, h3, h, h4⟩ := collision c
  obtain ⟨l, n, rfl⟩ : ∃ l' n, l = l' ++ [n] := by
    refine ⟨l.dropLast, l.getLast (by rintro rfl; simp at h1), (List.dropLast_append_getLast _).symm⟩
  rw [List.nodup_append] at h2
  obtain ⟨hnd, _, hdis⟩ := h2
  have hlen : l.length = 65535 := by simpa using h1
  have hnn : n ∉ l := fun hn => hdis n hn n (by simp) rfl
  -- inserting names that are all different frees nothing
  have key : ∀ k : List Bytes, k.Nodup → k.length ≤ 65535 → ∃ t, insertAll c (k.map fun x => (x, v)) = some (t, []) ∧
      Holds c (t.getD new0) (k.map fun x => (x, v)) [] := by
    intro k hk hkl
    have hcard : (names (k.map fun x => (x, v))).card = k.length := by
      unfold names
      rw [List.map_map, show ((fun x : Bytes × α => x.1) ∘ fun x => (x, v)) = id from rfl, List.map_id, List.toFinset_card_of_nodup hk]
    obtain ⟨t, freed, g1, g2, _⟩ := insertAll_holds c (k.map fun x => (x, v)) (by omega)
    have hc := g2.count_le
    rw [g2.inv.cnt g2.ovf, hcard] at hc
    have ha := congrArg Multiset.card g2.all
    simp only [Multiset.card_add, Multiset.coe_card, List.length_map] at ha
    have : freed = [] := List.length_eq_zero_iff.1 (by omega)
    subst this
    exact ⟨t, g1, g2⟩
  obtain ⟨t, g1, g2⟩ := key l hnd (by omega)
  have hcont : (t.getD new0).cont = ((l.map fun x => (x, v)) : List (Bytes × α)) := by
    have := g2.all
    rw [Multiset.coe_nil, zero_add] at this
    exact this
  obtain ⟨m', s1, s2, s3⟩ := set_lost (e := (n, v)) g2.inv g2.ovf
    (by
      have := g2.inv.cnt g2.ovf
      rw [hcont] at this
      simpa [hlen] using this)
    (by
      intro x hx
      rw [hcont] at hx
      obtain ⟨y, hy, rfl⟩ := List.mem_map.1 (Multiset.mem_coe.1 hx)
      rw [h4 y (by simp [hy]), h4 n (by simp)])
    (by
      intro x hx
      rw [hcont] at hx
      obtain ⟨y, hy, rfl⟩ := List.mem_map.1 (Multiset.mem_coe.1 hx)
      rintro rfl
      exact hnn hy)
  refine ⟨l.map fun x => (x, v), (n, v), ?_, by simpa using hlen, rfl, ?_, m', ?_, s2, s3.trans hcont⟩
  · intro x hx
    rcases List.mem_append.1 hx with hx | hx
    · obtain ⟨y, hy, rfl⟩ := List.mem_map.1 hx
      exact h3 y (by simp [hy])
    · rw [List.mem_singleton.1 hx]
      exact h3 n (by simp)
  · intro hx
    obtain ⟨y, hy, hye⟩ := List.mem_map.1 hx
    simp at hye
    exact hnn (hye ▸ hy)
  · rw [insertAll_snoc, g1]
    simp [insert, s1]

/-- C89: with 65536 statements a client can lose one.  Whatever the hash function is, there are legal names such that the statement
prepared last is not found. -/
theorem not_found (α : Type) [Inhabited α] (c : Ctx) : ∃ ins : List (Bytes × α), ins.length = 65536 ∧ ¬ Found α c ins := by
  obtain ⟨ins, e, h1, h2, _, _, m, h3, h4, _⟩ := last_lost c (default : α)
  refine ⟨ins ++ [e], by simp [h2], ?_⟩
  intro hf
  obtain ⟨t, freed, g1, g2⟩ := hf h1
  rw [h3] at g1
  simp only [Option.some.injEq, Prod.mk.injEq] at g1
  rw [← g1.1] at g2
  have hn := h1 e (by simp)
  have := g2 e.1 hn
  unfold lookup at this
  simp only [] at this
  rw [if_neg (by have := hn.1; omega), get, h4, latest_snoc, if_pos rfl] at this
  simp at this

/-! ### C90 -/

/-- The full claim: of everything kept under a name on a connection, each is freed exactly once: when it is replaced or when the
connection goes away. -/
def FreedOnce (α : Type) [Inhabited α] (c : Ctx) (ins : List (Bytes × α)) : Prop :=
  ∃ t freed, insertAll c ins = some (t, freed) ∧ (freed ++ freeAll t).Perm ins

/-- C90: it holds while a connection uses fewer than 65536 names. -/
theorem freed_once_partial (c : Ctx) (ins : List (Bytes × α)) (hn : (names ins).card < 65536) : FreedOnce α c ins := by
  obtain ⟨t, freed, h1, h2, h3⟩ := insertAll_holds c ins (by omega)
  refine ⟨t, freed, h1, ?_⟩
  rw [← Multiset.coe_eq_coe, ← Multiset.coe_add, ← h2.all]
  cases t with
  | none =>
    simp [freeAll, new0, cont_new]
  | some m => simp [freeAll, coe_iter]

/-- Three things under two names. -/
example : (names [([97], 1), ([98], 2), ([97], 3)] : Finset Bytes).card < 65536 := by decide

/-- C90: with 65536 names one can be left that is never freed. -/
theorem never_freed (α : Type) [Inhabited α] (c : Ctx) : ∃ (ins : List (Bytes × α)) (e : Bytes × α) (t : Option (Tbl α)) (freed : List (Bytes × α)),
    e ∈ ins ∧ ins.length = 65536 ∧ (∀ x ∈ ins, Pg.Name x.1) ∧ insertAll c ins = some (t, freed) ∧ e ∉ freed ++ freeAll t := by
  obtain ⟨ins, e, h1, h2, _, h0, m, h3, _, h5⟩ := last_lost c (default : α)
  refine ⟨ins ++ [e], e, some m, [], by simp, by simp [h2], h1, h3, ?_⟩
  have : (iter m : Multiset (Bytes × α)) = (ins : Multiset (Bytes × α)) := by rw [coe_iter, h5]
  have hp := Multiset.coe_eq_coe.1 this
  intro hmem
  exact h0 (hp.mem_iff.1 (by simpa [freeAll] using hmem))

end Verif.Hashmap
