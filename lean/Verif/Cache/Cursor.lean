import Verif.Cache.Alloc

/-!
C17, C18: the cursor scan `pogocache_entry_iter`.
-/

namespace Verif.Cache

open Verif.Map Verif.Shard Function

/-- The loop of `pogocache_entry_iter`, `/repo/src/pogocache.c:1800-1811`: `s` is `shardidx`.  Access to the shard
with index `n`, one past the last, is undefined behaviour.  Result: cache, notifications, entry and new cursor. -/
def entryIterLoop (n : Nat) (now : Int) : Nat → Nat → Nat → Shards → Out (Shards × List Ev × Option Ent × Nat)
  | 0, _, _, _ => .hang
  | fuel + 1, s, iter, shs =>
    if n ≤ s then .ub
    else (entryIter now iter (shs s)).bind fun x =>
      let shs' := update shs s x.1
      match x.2.2.1 with
      | some e => .val (shs', x.2.1, some e, s * 2 ^ 32 + x.2.2.2)
      | none =>
        if s + 1 = n then .val (shs', x.2.1, none, 0)
        else (entryIterLoop n now fuel (s + 1) 0 shs').bind fun y => .val (y.1, x.2.1 ++ y.2.1, y.2.2)

/-- `pogocache_entry_iter`, `/repo/src/pogocache.c:1784-1815`.  The two halves of the 64-bit cursor are converted to
`int`, so halves from `2^31` on are negative (lines 1789-1797).  The upper bound of the shard index is checked with
`>` instead of `>=` (line 1790). -/
def cursorNext (n : Nat) (now : Int) (cursor : Nat) (shs : Shards) : Out (Shards × List Ev × Option Ent × Nat) :=
  let s := cursor / 2 ^ 32
  let iter := cursor % 2 ^ 32
  if 2 ^ 31 ≤ s ∨ n < s then .val (shs, [], none, 0)
  else if 2 ^ 31 ≤ iter then .val (shs, [], none, 0)
  else entryIterLoop n now (n + 1) s iter shs

/-! ### C18 -/

/-- **C18, negation.**  For every number of shards there is a cursor, `n` in the upper half, with which the scan
accesses a shard that does not exist, in every state of the cache. -/
theorem cursor_out_of_bounds {n : Nat} (hn : n < 2 ^ 31) (now : Int) (shs : Shards) :
    n * 2 ^ 32 < 2 ^ 64 ∧ cursorNext n now (n * 2 ^ 32) shs = .ub := by
  refine ⟨by omega, ?_⟩
  unfold cursorNext
  have h1 : n * 2 ^ 32 / 2 ^ 32 = n := by omega
  have h2 : n * 2 ^ 32 % 2 ^ 32 = 0 := by omega
  simp only [h1, h2]
  rw [if_neg (by omega), if_neg (by omega)]
  simp [entryIterLoop]

/-! ### One shard -/

/-- The scan that stops at the first live entry. -/
theorem stop_scan {now : Int} {fuel i : Nat} {st st' : Scan}
    (h : scanLoop now (fun _ _ => .stop) fuel i st = .val st') (hs : st.stopped = false) (hi : i ≤ st.map.nbuckets)
    (hnb : ∀ m m' j, delbkt m j = some m' → m'.nbuckets = m.nbuckets) :
    (∃ evs, st'.evs = st.evs ++ evs ∧ (∀ ev ∈ evs, ∃ e, ev = .expired e ∧ e.alive now = false) ∧ (evs = [] → st'.map = st.map)) ∧
    ((st'.stopped = false ∧ st'.seen = st.seen) ∨
      (st'.stopped = true ∧ i < st'.pos ∧ st'.pos ≤ st.map.nbuckets ∧ ∃ e, st'.seen = st.seen ++ [e] ∧ e.alive now = true ∧
        (st'.map.buckets (st'.pos - 1)).dib ≠ 0 ∧ (st'.map.buckets (st'.pos - 1)).ent = e)) := by
  induction fuel generalizing i st with
  | zero => simp [scanLoop] at h
  | succ fuel ih =>
    unfold scanLoop at h
    split at h
    · rename_i hlt
      simp only [] at h
      split at h
      · obtain ⟨h1, h2⟩ := ih h hs (by omega)
        refine ⟨h1, ?_⟩
        rcases h2 with h2 | ⟨a, b, d⟩
        · exact Or.inl h2
        · exact Or.inr ⟨a, by omega, d⟩
      · rename_i hd
        split at h
        · rename_i hal
          obtain ⟨m, hm, h⟩ := out_bind_val h
          have hm' := ofLoop_val hm
          have hnm := hnb _ _ _ hm'
          obtain ⟨⟨evs, h1, h2, h3⟩, h4⟩ := ih h hs (by simp only []; omega)
          simp only [] at h1 h4
          refine ⟨⟨.expired (st.map.buckets i).ent :: evs, by rw [h1]; simp, ?_, by simp⟩, ?_⟩
          · intro ev hev
            rcases List.mem_cons.1 hev with rfl | hev
            · exact ⟨_, rfl, by simpa using hal⟩
            · exact h2 ev hev
          · rw [hnm] at h4
            exact h4
        · rename_i hal
          simp only [Out.val.injEq] at h
          subst h
          refine ⟨⟨[], by simp, by simp, fun _ => rfl⟩, Or.inr ⟨rfl, by simp, by simp only []; omega, _, rfl, by simpa using hal, ?_, ?_⟩⟩
          · simpa using hd
          · simp
    · simp only [Out.val.injEq] at h
      subst h
      exact ⟨⟨[], by simp, by simp, fun _ => rfl⟩, Or.inl ⟨hs, rfl⟩⟩

/-- One shard, from bucket `i` on; `K` holds of the entries before. -/
theorem entryIter_spec {c : Ctx} (hv : c.Valid) (now : Int) (i : Nat) {s : Sh} (h : Inv c s.map) (ho : s.map.ovf = false)
    {K : Ent → Prop} (hK : ∀ j, j < i → j < s.map.nbuckets → (s.map.buckets j).dib ≠ 0 → K (s.map.buckets j).ent) :
    ∃ s' evs oe i', entryIter now i s = .val (s', evs, oe, i') ∧ Inv c s'.map ∧ s'.map.ovf = false ∧ s'.cas = s.cas ∧
      s'.map.nbuckets = s.map.nbuckets ∧
      s'.map.cont + (evs.flatMap Ev.gone : List Ent) = s.map.cont ∧
      (∀ ev ∈ evs, ∃ e, ev = .expired e ∧ e.alive now = false) ∧
      (evs = [] → s' = s) ∧
      (match oe with
       | none => ∀ e ∈ s'.map.cont, K e
       | some e => e.alive now = true ∧ e ∈ s'.map.cont ∧ i < i' ∧ i' ≤ s.map.nbuckets ∧
          (s'.map.buckets (i' - 1)).dib ≠ 0 ∧ (s'.map.buckets (i' - 1)).ent = e ∧
          ∀ j, j < i' → j < s'.map.nbuckets → (s'.map.buckets j).dib ≠ 0 → K (s'.map.buckets j).ent ∨ (s'.map.buckets j).ent = e) := by
  unfold entryIter
  by_cases hc : s.map.count = 0
  · rw [if_pos hc]
    have hc0 : s.map.cont = 0 := by
      have := h.card
      rw [hc] at this
      exact Multiset.card_eq_zero.1 (by omega)
    refine ⟨s, [], none, 0, rfl, h, ho, rfl, rfl, by simp, by simp, fun _ => rfl, ?_⟩
    simp only [hc0]
    simp
  rw [if_neg hc]
  obtain ⟨st, h1, h2, h3, h4, h5, h6, h7, h8⟩ :=
    scanLoop_spec hv now (fun _ _ => .stop) (scanFuel s.map) i ⟨s.map, [], [], false, 0⟩ h rfl (by unfold scanFuel; simp only []; omega)
      K (fun j a b d => Or.inl (hK j a b d))
  obtain ⟨evs, seen, hst, hstop⟩ := h8 ho
  have hevs : st.evs = evs := by have := hst.evs_eq; simpa using this
  have hseen : st.seen = seen := by have := hst.seen_eq; simpa using this
  rw [h1]
  simp only [Out.bind]
  by_cases hi : i ≤ s.map.nbuckets
  · obtain ⟨⟨evs', he1, he2, he3⟩, hcase⟩ := stop_scan h1 rfl hi (by
      intro m m' j hd
      unfold delbkt at hd
      obtain ⟨b, _, rfl⟩ := Option.map_eq_some_iff.1 hd
      rfl)
    have he1 : st.evs = evs' := by simpa using he1
    have hevv : evs' = evs := by rw [← he1, hevs]
    subst hevv
    rcases hcase with ⟨hs0, hsn⟩ | ⟨hs1, hp1, hp2, e, hse, hal, hd, hent⟩
    · simp only [] at hsn
      rw [hsn]
      refine ⟨_, _, _, _, rfl, h2, by rw [h3]; exact ho, rfl, h5, ?_, ?_, ?_, ?_⟩
      · rw [hevs]; exact hst.cont
      · rw [hevs]; exact he2
      · rw [hevs]
        intro hnil
        rw [he3 hnil]
      · simp only []
        intro e he
        obtain ⟨j, hj, hd, rfl⟩ := mem_cont.1 he
        have h6' := h6 hs0
        simp only [] at h5 h6'
        rcases h7 j (by omega) hj hd with hf | hf
        · exact hf
        · rw [hsn] at hf; simp at hf
    · have hse : st.seen = [e] := by simpa using hse
      rw [hse]
      refine ⟨_, _, _, _, rfl, h2, by rw [h3]; exact ho, rfl, h5, ?_, ?_, ?_, hal, ?_, hp1, hp2, hd, hent, ?_⟩
      · rw [hevs]; exact hst.cont
      · rw [hevs]; exact he2
      · rw [hevs]
        intro hnil
        rw [he3 hnil]
      · have h5' : st.map.nbuckets = s.map.nbuckets := h5
        have hp2' : st.pos ≤ s.map.nbuckets := hp2
        exact mem_cont.2 ⟨st.pos - 1, by rw [h5']; omega, hd, hent⟩
      · intro j hj hjn hjd
        rcases h7 j hj hjn hjd with hf | hf
        · exact Or.inl hf
        · right; rw [hse] at hf; simpa using hf
  · have : scanLoop now (fun _ _ => .stop) (scanFuel s.map) i ⟨s.map, [], [], false, 0⟩ = .val ⟨s.map, [], [], false, i⟩ := by
      unfold scanFuel scanLoop
      rw [if_neg (by simp only []; omega)]
    rw [h1] at this
    simp only [Out.val.injEq] at this
    subst this
    refine ⟨_, _, _, _, rfl, h, ho, rfl, rfl, by simp, by simp, fun _ => rfl, ?_⟩
    simp only []
    intro e he
    obtain ⟨j, hj, hd, rfl⟩ := mem_cont.1 he
    exact hK j (by omega) hj hd

/-! ### C18, the other cursors -/

theorem entryIter_val {c : Ctx} (hv : c.Valid) (now : Int) (i : Nat) {s : Sh} (h : Inv c s.map) :
    ∃ x, entryIter now i s = .val x ∧ Inv c x.1.map := by
  unfold entryIter
  split
  · exact ⟨_, rfl, h⟩
  · obtain ⟨st, h1, h2, _⟩ :=
      scanLoop_spec hv now (fun _ _ => .stop) (scanFuel s.map) i ⟨s.map, [], [], false, 0⟩ h rfl (by unfold scanFuel; simp only []; omega)
        (fun _ => True) (fun j _ _ _ => Or.inl trivial)
    rw [h1]
    simp only [Out.bind]
    split
    · exact ⟨_, rfl, h2⟩
    · exact ⟨_, rfl, h2⟩

theorem entryIterLoop_val {c : Ctx} (hv : c.Valid) {n : Nat} (now : Int) (fuel s i : Nat) (shs : Shards) (h : AllInv c n shs)
    (hs : s < n) (hf : n - s ≤ fuel) :
    ∃ r, entryIterLoop n now fuel s i shs = .val r ∧ ∀ shs2, (∀ j, j < n → shs2 j = shs j) →
      ∃ r2, entryIterLoop n now fuel s i shs2 = .val r2 ∧ r2.2 = r.2 ∧ (∀ j, j < n → r2.1 j = r.1 j) ∧ ∀ j, n ≤ j → r2.1 j = shs2 j := by
  induction fuel generalizing s i shs with
  | zero => omega
  | succ fuel ih =>
    obtain ⟨x, hx, hix⟩ := entryIter_val hv now i (h s hs)
    have hup : AllInv c n (update shs s x.1) := by
      intro j hj
      by_cases hjs : j = s
      · subst hjs; simpa using hix
      · rw [update_of_ne hjs]; exact h j hj
    have hsame : ∀ shs2 : Shards, (∀ j, j < n → shs2 j = shs j) → ∀ j, j < n → update shs2 s x.1 j = update shs s x.1 j := by
      intro shs2 h2 j hj
      by_cases hjs : j = s
      · subst hjs; simp
      · rw [update_of_ne hjs, update_of_ne hjs, h2 j hj]
    have hout : ∀ shs2 : Shards, ∀ j, n ≤ j → update shs2 s x.1 j = shs2 j := fun shs2 j hj => update_of_ne (by omega) _ _
    unfold entryIterLoop
    rw [if_neg (by omega), hx]
    simp only [Out.bind, if_neg (show ¬ n ≤ s by omega)]
    cases hoe : x.2.2.1 with
    | some e =>
      refine ⟨_, rfl, ?_⟩
      intro shs2 h2
      rw [h2 s hs, hx]
      simp only [hoe]
      exact ⟨_, rfl, rfl, hsame shs2 h2, hout shs2⟩
    | none =>
      simp only []
      by_cases hl : s + 1 = n
      · rw [if_pos hl]
        refine ⟨_, rfl, ?_⟩
        intro shs2 h2
        rw [h2 s hs, hx]
        simp only [hoe, if_pos hl]
        exact ⟨_, rfl, rfl, hsame shs2 h2, hout shs2⟩
      · rw [if_neg hl]
        obtain ⟨r, hr, hr2⟩ := ih (s + 1) 0 (update shs s x.1) hup (by omega) (by omega)
        rw [hr]
        refine ⟨_, rfl, ?_⟩
        intro shs2 h2
        rw [h2 s hs, hx]
        simp only [hoe, if_neg hl]
        obtain ⟨r2, a1, a2, a3, a4⟩ := hr2 _ (hsame shs2 h2)
        rw [a1]
        refine ⟨_, rfl, by rw [a2], a3, ?_⟩
        intro j hj
        rw [a4 j hj]
        exact hout shs2 j hj

/-- **C18** (`_partial`: cursors whose upper half is exactly the number of shards are excluded, see
`cursor_out_of_bounds`).  With every other cursor the scan completes, its answer and its effect on the cache do not
depend on anything outside the `n` shards, and nothing outside them changes. -/
theorem cursor_touches_only_shards_partial {c : Ctx} (hv : c.Valid) {n : Nat} (hn : 0 < n) (now : Int) {cursor : Nat}
    {shs : Shards} (h : Reach c n shs) (hc : cursor / 2 ^ 32 ≠ n) :
    ∃ r, cursorNext n now cursor shs = .val r ∧ ∀ shs2, (∀ j, j < n → shs2 j = shs j) →
      ∃ r2, cursorNext n now cursor shs2 = .val r2 ∧ r2.2 = r.2 ∧ (∀ j, j < n → r2.1 j = r.1 j) ∧ ∀ j, n ≤ j → r2.1 j = shs2 j := by
  unfold cursorNext
  simp only []
  split
  · exact ⟨_, rfl, fun shs2 h2 => ⟨_, rfl, rfl, h2, fun _ _ => rfl⟩⟩
  · split
    · exact ⟨_, rfl, fun shs2 h2 => ⟨_, rfl, rfl, h2, fun _ _ => rfl⟩⟩
    · exact entryIterLoop_val hv now _ _ _ _ (h.allInv hv hn) (by omega) (by omega)

/-! ### C17: following the cursor -/

/-- An entry sits in one bucket only. -/
theorem bucket_unique {c : Ctx} {m : Tbl} (h : Inv c m) (ho : m.ovf = false) {i j : Nat} (hi : i < m.nbuckets) (hj : j < m.nbuckets)
    (di : (m.buckets i).dib ≠ 0) (dj : (m.buckets j).dib ≠ 0) (he : (m.buckets i).ent = (m.buckets j).ent) : i = j := by
  by_contra hne
  have hnd := h.nodup ho
  have hle : Map.bc (m.buckets i) + Map.bc (m.buckets j) ≤ m.cont := by
    have : ({i, j} : Finset Nat) ⊆ Finset.range m.nbuckets := by
      intro x hx
      simp only [Finset.mem_insert, Finset.mem_singleton] at hx
      rcases hx with rfl | rfl <;> simpa
    have h2 := Finset.sum_le_sum_of_subset (f := fun j => Map.bc (m.buckets j)) this
    rw [Finset.sum_pair hne] at h2
    exact h2
  have h3 := Multiset.nodup_of_le (Multiset.map_le_map hle) hnd
  unfold Map.bc at h3
  rw [if_neg di, if_neg dj, he] at h3
  simp at h3

/-- Bucket `b` of shard `j` comes before bucket `i` of shard `s`. -/
def Before (s i j b : Nat) : Prop := j < s ∨ (j = s ∧ b < i)

theorem loop_spec {c : Ctx} (hv : c.Valid) {n : Nat} (now : Int) (fuel s i : Nat) (shs : Shards) (h : AllInv c n shs)
    (hnw : NoWrap n shs) (hs : s < n) (hf : n - s ≤ fuel) {K : Ent → Prop}
    (hK : ∀ j b, j < n → b < (shs j).map.nbuckets → ((shs j).map.buckets b).dib ≠ 0 → Before s i j b → K ((shs j).map.buckets b).ent) :
    ∃ shs' evs oe cur, entryIterLoop n now fuel s i shs = .val (shs', evs, oe, cur) ∧ AllInv c n shs' ∧ NoWrap n shs' ∧
      (∀ j, (shs' j).map.nbuckets = (shs j).map.nbuckets) ∧
      (∀ j, j < n → ∀ e, e ∈ (shs' j).map.cont → e ∈ (shs j).map.cont) ∧
      (∀ j, j < n → ∀ e, e ∈ (shs j).map.cont → e ∈ (shs' j).map.cont ∨ e.alive now = false) ∧
      (∀ ev ∈ evs, ∃ e, ev = .expired e ∧ e.alive now = false) ∧
      (evs = [] → shs' = shs) ∧
      (match oe with
       | none => cur = 0 ∧ ∀ j, j < n → ∀ e ∈ (shs' j).map.cont, K e
       | some e => ∃ s' i', cur = s' * 2 ^ 32 + i' ∧ s ≤ s' ∧ s' < n ∧ 0 < i' ∧ i' ≤ (shs s').map.nbuckets ∧ (s' = s → i < i') ∧
          e.alive now = true ∧ ((shs' s').map.buckets (i' - 1)).dib ≠ 0 ∧ ((shs' s').map.buckets (i' - 1)).ent = e ∧
          ∀ j b, j < n → b < (shs' j).map.nbuckets → ((shs' j).map.buckets b).dib ≠ 0 → Before s' i' j b →
            K ((shs' j).map.buckets b).ent ∨ ((shs' j).map.buckets b).ent = e) := by
  induction fuel generalizing s i shs with
  | zero => omega
  | succ fuel ih =>
    obtain ⟨sh, evs, oe, i', hx, hinv, hov, hcas, hnb, hcont, hkind, hnil, hm⟩ := entryIter_spec hv now i (h s hs) (hnw s hs) (K := K)
      (fun j a b d => hK s j hs b d (Or.inr ⟨rfl, a⟩))
    have hup : AllInv c n (update shs s sh) := by
      intro j hj
      by_cases hjs : j = s
      · subst hjs; simpa using hinv
      · rw [update_of_ne hjs]; exact h j hj
    have hupw : NoWrap n (update shs s sh) := by
      intro j hj
      by_cases hjs : j = s
      · subst hjs; simpa using hov
      · rw [update_of_ne hjs]; exact hnw j hj
    have hupnb : ∀ j, ((update shs s sh) j).map.nbuckets = (shs j).map.nbuckets := by
      intro j
      by_cases hjs : j = s
      · subst hjs; simpa using hnb
      · rw [update_of_ne hjs]
    have hsub : ∀ j, j < n → ∀ e, e ∈ ((update shs s sh) j).map.cont → e ∈ (shs j).map.cont := by
      intro j hj e he
      by_cases hjs : j = s
      · subst hjs
        rw [update_self] at he
        rw [← hcont]
        exact Multiset.mem_add.2 (Or.inl he)
      · rw [update_of_ne hjs] at he; exact he
    have hlost : ∀ j, j < n → ∀ e, e ∈ (shs j).map.cont → e ∈ ((update shs s sh) j).map.cont ∨ e.alive now = false := by
      intro j hj e he
      by_cases hjs : j = s
      · subst hjs
        rw [update_self]
        rw [← hcont] at he
        rcases Multiset.mem_add.1 he with he | he
        · exact Or.inl he
        · right
          obtain ⟨ev, hev, hge⟩ := List.mem_flatMap.1 (Multiset.mem_coe.1 he)
          obtain ⟨e', rfl, ha⟩ := hkind ev hev
          simp only [Ev.gone, List.mem_singleton] at hge
          rw [hge]; exact ha
      · rw [update_of_ne hjs]; exact Or.inl he
    unfold entryIterLoop
    rw [if_neg (by omega), hx]
    simp only [Out.bind]
    cases oe with
    | some e =>
      simp only [] at hm ⊢
      obtain ⟨m1, m2, m3, m4, m5, m6, m7⟩ := hm
      refine ⟨_, _, _, _, rfl, hup, hupw, hupnb, hsub, hlost, hkind, ?_, s, i', rfl, le_refl _, hs, by omega, m4, fun _ => m3, m1, ?_, ?_, ?_⟩
      · intro h0; rw [hnil h0]; exact update_eq_self _ _
      · rw [update_self]; exact m5
      · rw [update_self]; exact m6
      · intro j b hj hb hd hbef
        rcases hbef with hlt | ⟨rfl, hlt⟩
        · rw [update_of_ne (by omega)] at hb hd ⊢
          exact Or.inl (hK j b hj hb hd (Or.inl hlt))
        · rw [update_self] at hb hd ⊢
          exact m7 b hlt hb hd
    | none =>
      simp only [] at hm ⊢
      have hK' : ∀ j b, j < n → b < ((update shs s sh) j).map.nbuckets → (((update shs s sh) j).map.buckets b).dib ≠ 0 →
          Before (s + 1) 0 j b → K (((update shs s sh) j).map.buckets b).ent := by
        intro j b hj hb hd hbef
        rcases hbef with hlt | ⟨_, hlt⟩
        · by_cases hjs : j = s
          · subst hjs
            rw [update_self] at hb hd ⊢
            exact hm _ (mem_cont.2 ⟨b, hb, hd, rfl⟩)
          · rw [update_of_ne hjs] at hb hd ⊢
            exact hK j b hj hb hd (Or.inl (by omega))
        · omega
      by_cases hl : s + 1 = n
      · rw [if_pos hl]
        refine ⟨_, _, _, _, rfl, hup, hupw, hupnb, hsub, hlost, hkind, ?_, rfl, ?_⟩
        · intro h0; rw [hnil h0]; exact update_eq_self _ _
        · intro j hj e he
          obtain ⟨b, hb, hd, rfl⟩ := mem_cont.1 he
          exact hK' j b hj hb hd (Or.inl (by omega))
      · rw [if_neg hl]
        obtain ⟨shs', evs', oe, cur, b1, b2, b3, b4, b5, b6, b7, b8, b9⟩ := ih (s + 1) 0 (update shs s sh) hup hupw (by omega) (by omega) hK'
        rw [b1]
        refine ⟨_, _, _, _, rfl, b2, b3, fun j => by rw [b4 j, hupnb j], fun j hj e he => hsub j hj e (b5 j hj e he), ?_, ?_, ?_, ?_⟩
        · intro j hj e he
          rcases hlost j hj e he with he | he
          · exact b6 j hj e he
          · exact Or.inr he
        · intro ev hev
          rcases List.mem_append.1 hev with hev | hev
          · exact hkind ev hev
          · exact b7 ev hev
        · intro h0
          obtain ⟨h01, h02⟩ := List.append_eq_nil_iff.1 h0
          rw [b8 h02, hnil h01]; exact update_eq_self _ _
        · cases oe with
          | none => exact b9
          | some e =>
            simp only [] at b9 ⊢
            obtain ⟨s', i', d1, d2, d3, d4, d5, d6, d7⟩ := b9
            exact ⟨s', i', d1, by omega, d3, d4, by rw [← hupnb s']; exact d5, by omega, d7⟩

/-- Following the cursor as a client does (`/repo/src/cmds.c:2130-2275` does it `count` times per command): one call
per element of the list of times, until the scan says that it is over.  Result: the cache, the notifications, the
entries returned, and whether the scan is over. -/
def walk (n : Nat) : List Int → Nat → Shards → Out (Shards × List Ev × List Ent × Bool)
  | [], _, shs => .val (shs, [], [], false)
  | t :: ts, cursor, shs => (cursorNext n t cursor shs).bind fun x =>
    match x.2.2.1 with
    | none => .val (x.1, x.2.1, [], true)
    | some e => (walk n ts x.2.2.2 x.1).bind fun y => .val (y.1, x.2.1 ++ y.2.1, e :: y.2.2.1, y.2.2.2)

/-- Number of buckets before a position. -/
def rank (nb : Nat → Nat) (s i : Nat) : Nat := ∑ j ∈ Finset.range s, nb j + i

theorem rank_mono (nb : Nat → Nat) {s t : Nat} (h : s ≤ t) : rank nb s 0 ≤ rank nb t 0 := by
  unfold rank
  have : Finset.range s ⊆ Finset.range t := Finset.range_subset_range.2 h
  have := Finset.sum_le_sum_of_subset (f := nb) this
  omega

theorem rank_next (nb : Nat → Nat) {s i s' i' : Nat} (hi : i ≤ nb s) (hle : s ≤ s') (h0 : 0 < i') (he : s' = s → i < i') :
    rank nb s i < rank nb s' i' := by
  by_cases hs : s' = s
  · subst hs
    unfold rank
    have := he rfl
    omega
  · have h1 := rank_mono nb (show s + 1 ≤ s' by omega)
    have h2 : rank nb (s + 1) 0 = rank nb s 0 + nb s := by unfold rank; rw [Finset.sum_range_succ]; omega
    have h3 : ∀ a b, rank nb a b = rank nb a 0 + b := by intro a b; unfold rank; omega
    rw [h3 s i, h3 s' i']
    omega

theorem walk_spec {c : Ctx} (hv : c.Valid) {n : Nat} (hn : n < 2 ^ 31) (ts : List Int) (s i : Nat) (shs : Shards) (h : AllInv c n shs)
    (hnw : NoWrap n shs) (hs : s < n) (hi : i ≤ (shs s).map.nbuckets)
    (hloc : ∀ j, j < n → ∀ e ∈ (shs j).map.cont, shardIdx c n e.key = j) (hsz : ∀ j, j < n → (shs j).map.nbuckets < 2 ^ 31) {K : Ent → Prop}
    (hK : ∀ j b, j < n → b < (shs j).map.nbuckets → ((shs j).map.buckets b).dib ≠ 0 → Before s i j b → K ((shs j).map.buckets b).ent) :
    ∃ shs' evs es done, walk n ts (s * 2 ^ 32 + i) shs = .val (shs', evs, es, done) ∧
      (∀ j, j < n → ∀ e, e ∈ (shs j).map.cont → e ∈ (shs' j).map.cont ∨ ∃ t ∈ ts, e.alive t = false) ∧
      (∀ e ∈ es, (∃ t ∈ ts, e.alive t = true) ∧ ∃ j, j < n ∧ e ∈ (shs j).map.cont) ∧
      (done = true → ∀ j, j < n → ∀ e ∈ (shs' j).map.cont, K e ∨ e ∈ es) ∧
      (evs = [] → shs' = shs ∧ es.Pairwise (· ≠ ·) ∧ ∀ e ∈ es, ∃ j b, j < n ∧ b < (shs j).map.nbuckets ∧ ¬ Before s i j b ∧
        ((shs j).map.buckets b).dib ≠ 0 ∧ ((shs j).map.buckets b).ent = e) ∧
      (rank (fun j => (shs j).map.nbuckets) n 0 < rank (fun j => (shs j).map.nbuckets) s i + ts.length → done = true) := by
  induction ts generalizing s i shs K with
  | nil =>
    refine ⟨_, _, _, _, rfl, fun j _ e he => Or.inl he, by simp, by simp, by simp, ?_⟩
    intro hr
    exfalso
    have h1 := rank_mono (fun j => (shs j).map.nbuckets) (show s + 1 ≤ n by omega)
    have h2 : rank (fun j => (shs j).map.nbuckets) (s + 1) 0 = rank (fun j => (shs j).map.nbuckets) s 0 + (shs s).map.nbuckets := by
      simp only [rank, Finset.sum_range_succ, Nat.add_zero]
    have h3 : ∀ a b, rank (fun j => (shs j).map.nbuckets) a b = rank (fun j => (shs j).map.nbuckets) a 0 + b := by intro a b; unfold rank; omega
    rw [h3 s i] at hr
    simp only [List.length_nil] at hr
    omega
  | cons t ts ih =>
    have hsz' := hsz s hs
    have hcur : cursorNext n t (s * 2 ^ 32 + i) shs = entryIterLoop n t (n + 1) s i shs := by
      unfold cursorNext
      have h1 : (s * 2 ^ 32 + i) / 2 ^ 32 = s := by omega
      have h2 : (s * 2 ^ 32 + i) % 2 ^ 32 = i := by omega
      simp only [h1, h2]
      rw [if_neg (by omega), if_neg (by omega)]
    obtain ⟨shs1, evs, oe, cur, a1, a2, a3, a4, a5, a6, a7, a8, a9⟩ := loop_spec hv t (n + 1) s i shs h hnw hs (by omega) hK
    unfold walk
    rw [hcur, a1]
    simp only [Out.bind]
    cases oe with
    | none =>
      simp only [] at a9 ⊢
      refine ⟨_, _, _, _, rfl, ?_, by simp, fun _ j hj e he => Or.inl (a9.2 j hj e he), ?_, fun _ => rfl⟩
      · intro j hj e he
        rcases a6 j hj e he with he | he
        · exact Or.inl he
        · exact Or.inr ⟨t, by simp, he⟩
      · intro h0
        exact ⟨a8 h0, by simp, by simp⟩
    | some e =>
      simp only [] at a9 ⊢
      obtain ⟨s', i', rfl, d2, d3, d4, d5, d6, d7, d8, d9, d10⟩ := a9
      have hin1 : e ∈ (shs1 s').map.cont := mem_cont.2 ⟨i' - 1, by rw [a4]; omega, d8, d9⟩
      obtain ⟨shs2, evs2, es2, done, b1, b2, b3, b4, b5, b6⟩ := ih s' i' shs1 a2 a3 d3 (by rw [a4]; exact d5)
        (fun j hj e he => hloc j hj e (a5 j hj e he)) (fun j hj => by rw [a4]; exact hsz j hj)
        (K := fun x => K x ∨ x = e) d10
      rw [b1]
      refine ⟨_, _, _, _, rfl, ?_, ?_, ?_, ?_, ?_⟩
      · intro j hj x hx
        rcases a6 j hj x hx with hx | hx
        · rcases b2 j hj x hx with hx | ⟨t', ht', hx⟩
          · exact Or.inl hx
          · exact Or.inr ⟨t', by simp [ht'], hx⟩
        · exact Or.inr ⟨t, by simp, hx⟩
      · intro x hx
        rcases List.mem_cons.1 hx with rfl | hx
        · exact ⟨⟨t, by simp, d7⟩, s', d3, a5 s' d3 _ hin1⟩
        · obtain ⟨⟨t', ht', ha⟩, j, hj, hm⟩ := b3 x hx
          exact ⟨⟨t', by simp [ht'], ha⟩, j, hj, a5 j hj x hm⟩
      · intro hd j hj x hx
        rcases b4 hd j hj x hx with (hx | rfl) | hx
        · exact Or.inl hx
        · right; simp
        · right; simp [hx]
      · intro h0
        obtain ⟨h01, h02⟩ := List.append_eq_nil_iff.1 h0
        have he1 := a8 h01
        subst he1
        obtain ⟨g1, g2, g3⟩ := b5 h02
        refine ⟨g1, List.pairwise_cons.2 ⟨?_, g2⟩, ?_⟩
        · intro x hx hxe
          obtain ⟨j, b, hj, hb, hnb, hd, hent⟩ := g3 x hx
          have hin2 : x ∈ (shs1 j).map.cont := mem_cont.2 ⟨b, hb, hd, hent⟩
          have hj1 : j = s' := by rw [← hloc j hj x hin2, ← hloc s' d3 e hin1, hxe]
          subst hj1
          have := bucket_unique (a2 j d3) (a3 j d3) (i := i' - 1) (j := b) (by omega) hb d8 hd (by rw [d9, hent, hxe])
          apply hnb
          right
          exact ⟨rfl, by omega⟩
        · intro x hx
          rcases List.mem_cons.1 hx with rfl | hx
          · refine ⟨s', i' - 1, d3, by omega, ?_, d8, d9⟩
            unfold Before
            rintro (hlt | ⟨rfl, hlt⟩)
            · omega
            · have := d6 rfl; omega
          · obtain ⟨j, b, hj, hb, hnb, hd, hent⟩ := g3 x hx
            refine ⟨j, b, hj, hb, ?_, hd, hent⟩
            unfold Before at hnb ⊢
            rintro (hlt | ⟨rfl, hlt⟩)
            · omega
            · apply hnb
              by_cases hjs : j = s'
              · subst hjs
                have := d6 rfl; right; omega
              · left; omega
      · intro hr
        apply b6
        have e1 : (fun j => (shs1 j).map.nbuckets) = fun j => (shs j).map.nbuckets := funext a4
        rw [e1]
        have := rank_next (fun j => (shs j).map.nbuckets) (show i ≤ (fun j => (shs j).map.nbuckets) s from hi) d2 d4 d6
        simp only [List.length_cons] at hr
        omega

/-- **C17** (`_partial`: nothing but expiry happens between the calls; for other changes see
`cursor_walk_skips_entry`).  Following the cursor from 0, at any times, in any reachable cache: every entry returned
is an entry of the cache that is live when it is returned; the scan ends after a bounded number of calls; when it ends
every entry that is live at all these times has been returned; and if no entry expired on the way, the cache is
unchanged and no entry was returned twice.  (`int` limits the sizes of tables and the number of shards.) -/
theorem cursor_walk_complete_partial {c : Ctx} (hv : c.Valid) {n : Nat} (hn : 0 < n) (hn2 : n < 2 ^ 31) {shs : Shards}
    (h : Reach c n shs) (hnw : NoWrap n shs) (hsz : ∀ j, j < n → (shs j).map.nbuckets < 2 ^ 31) :
    ∃ N, ∀ ts : List Int, ∃ shs' evs es done, walk n ts 0 shs = .val (shs', evs, es, done) ∧
      (∀ e ∈ es, view c n shs e.key = some e ∧ ∃ t ∈ ts, e.alive t = true) ∧
      (N < ts.length → done = true) ∧
      (done = true → ∀ k e, view c n shs k = some e → (∀ t ∈ ts, e.alive t = true) → e ∈ es) ∧
      (evs = [] → shs' = shs ∧ es.Nodup) := by
  refine ⟨rank (fun j => (shs j).map.nbuckets) n 0, fun ts => ?_⟩
  have hall := h.allInv hv hn
  have hpl := h.placed hv hn hnw
  have hloc : ∀ j, j < n → ∀ e ∈ (shs j).map.cont, shardIdx c n e.key = j := by
    intro j hj e he
    exact hpl j hj e.key e ((shView_rep (hall j hj) (hnw j hj) _ _).2 ⟨he, rfl⟩)
  obtain ⟨shs', evs, es, done, h1, h2, h3, h4, h5, h6⟩ := walk_spec hv hn2 ts 0 0 shs hall hnw hn (Nat.zero_le _) hloc hsz (K := fun _ => False)
    (by intro j b _ _ _ hb; unfold Before at hb; omega)
  simp only [Nat.zero_mul, Nat.zero_add] at h1
  refine ⟨shs', evs, es, done, h1, ?_, ?_, ?_, ?_⟩
  · intro e he
    obtain ⟨ht, j, hj, hm⟩ := h3 e he
    refine ⟨?_, ht⟩
    unfold view
    rw [hloc j hj e hm]
    exact (shView_rep (hall j hj) (hnw j hj) _ _).2 ⟨hm, rfl⟩
  · intro hN
    apply h6
    have : rank (fun j => (shs j).map.nbuckets) 0 0 = 0 := by simp [rank]
    omega
  · intro hd k e hk hal
    have hj := shardIdx_lt c hn k
    have hm := ((shView_rep (hall _ hj) (hnw _ hj) _ _).1 hk).1
    rcases h2 _ hj e hm with hm' | ⟨t, ht, ha⟩
    · rcases h4 hd _ hj e hm' with hf | hf
      · exact absurd hf id
      · exact hf
    · rw [hal t ht] at ha; simp at ha
  · intro h0
    exact ⟨(h5 h0).1, (h5 h0).2.1⟩

namespace Example

/-- Three keys with the same hash. -/
def trio : List Call := [⟨.store [1] [10] (sOpts 0), okMem, 100⟩, ⟨.store [3] [30] (sOpts 0), okMem, 100⟩,
  ⟨.store [4] [40] (sOpts 0), okMem, 100⟩]

theorem trio_ok : ∀ x ∈ trio, OpOk x.mem x.now x.op := by
  intro x hx
  unfold trio at hx
  simp only [List.mem_cons, List.not_mem_nil, or_false] at hx
  rcases hx with rfl | rfl | rfl <;> exact ⟨⟨0, by decide⟩, fun _ => rfl⟩

def quad : List Call := trio ++ [⟨.store [2] [20] (sOpts 5), okMem, 100⟩]

/-- A hash function for which the keys share a home bucket in the middle of the table. -/
def ctx3 : Ctx := { ctx with H := fun _ => 5 }

/-- Scan once, delete the key returned, scan on to the end. -/
def scanDelScan : Out (Shards × Ent × CRes × Shards × List Ev × List Ent × Bool) :=
  (runCalls ctx3 1 trio (newCache ctx3)).bind fun x =>
  (cursorNext 1 101 0 x.1).bind fun y =>
  match y.2.2.1 with
  | none => .ub
  | some e => (exec ctx3 1 okMem 102 (.delete e.key none) y.1).bind fun r =>
    (walk 1 [103, 104, 105, 106] y.2.2.2 r.shs).bind fun z => .val (x.1, e, r, z)

end Example

/-- **C17, negation.**  Deleting the key the scan has just returned makes the scan skip a live entry nobody has
touched: of the keys 1, 3, 4 the scan returns 1, then, with 1 deleted, only 4. -/
theorem cursor_walk_skips_entry : ∃ shs shs1 ev1 e cur r shs2 evs es, Reach Example.ctx3 1 shs ∧
    (∃ e3, view Example.ctx3 1 shs [3] = some e3 ∧ e3.expires = 0) ∧
    cursorNext 1 101 0 shs = .val (shs1, ev1, some e, cur) ∧ e.key = [1] ∧
    exec Example.ctx3 1 Example.okMem 102 (.delete [1] none) shs1 = .val r ∧ r.status = .deleted ∧ NoWrap 1 r.shs ∧
    walk 1 [103, 104, 105, 106] cur r.shs = .val (shs2, evs, es, true) ∧ es.map Ent.key = [[4]] := by
  obtain ⟨⟨shs, e, r, shs2, evs, es, done⟩, hr, h⟩ := Out.of_test (o := Example.scanDelScan)
    (p := fun x => noWrapB 1 x.2.2.1.shs = true ∧ x.2.1.key = [1] ∧ x.2.2.1.status = .deleted ∧ x.2.2.2.2.2.1.map Ent.key = [[4]] ∧ x.2.2.2.2.2.2 = true ∧
      (view Example.ctx3 1 x.1 [3]).map Ent.expires = some 0) (by decide +kernel)
  unfold Example.scanDelScan at hr
  obtain ⟨x, hx, hr⟩ := out_bind_val hr
  obtain ⟨y, hy, hr⟩ := out_bind_val hr
  cases ho : y.2.2.1 with
  | none => rw [ho] at hr; simp at hr
  | some e' =>
    rw [ho] at hr
    simp only [] at hr
    obtain ⟨q, hq, hr⟩ := out_bind_val hr
    obtain ⟨z, hz, hr⟩ := out_bind_val hr
    simp only [Out.val.injEq, Prod.mk.injEq] at hr
    obtain ⟨rfl, rfl, rfl, rfl⟩ := hr
    obtain ⟨h1, h2, h3, h4, h5, h6⟩ := h
    simp only [] at h1 h2 h3 h4 h5 h6
    rw [h2] at hq
    obtain ⟨y1, y2, y3, y4⟩ := y
    simp only [] at ho hq hz h4 h5
    subst ho h5
    obtain ⟨e3, he3, he3'⟩ := Option.map_eq_some_iff.1 h6
    exact ⟨x.1, y1, y2, _, y4, _, shs2, evs, es, runCalls_reach (c := Example.ctx3) .new Example.trio_ok hx, ⟨e3, he3, he3'⟩, hy, h2, hq, h3,
      noWrapB_iff.1 h1, hz, h4⟩

/-- The hypotheses of the positive theorems hold for two shards and four keys, one of which has expired. -/
example : ∃ shs rs, runCalls Example.ctx 2 Example.quad (newCache Example.ctx) = .val (shs, rs) ∧
    Reach Example.ctx 2 shs ∧ NoWrap 2 shs ∧ (∀ j, j < 2 → (shs j).map.nbuckets < 2 ^ 31) ∧
    ∃ shs' evs es, walk 2 [101, 102, 103, 106, 107] 0 shs = .val (shs', evs, es, true) ∧ es.map Ent.key = [[3], [4], [1]] := by
  obtain ⟨⟨x, y⟩, hr, h⟩ := Out.of_test (o := (runCalls Example.ctx 2 Example.quad (newCache Example.ctx)).bind fun x =>
      (walk 2 [101, 102, 103, 106, 107] 0 x.1).bind fun y => .val (x, y))
    (p := fun (z : (Shards × _) × Shards × List Ev × List Ent × Bool) => noWrapB 2 z.1.1 = true ∧ ((List.range 2).all fun j => decide ((z.1.1 j).map.nbuckets < 2 ^ 31)) = true ∧ z.2.2.2.2 = true ∧ z.2.2.2.1.map Ent.key = [[3], [4], [1]])
    (by decide +kernel)
  obtain ⟨x', hx, hr⟩ := out_bind_val hr
  obtain ⟨y', hy, hr⟩ := out_bind_val hr
  simp only [Out.val.injEq, Prod.mk.injEq] at hr
  obtain ⟨rfl, rfl⟩ := hr
  obtain ⟨h1, h2, h3, h4⟩ := h
  obtain ⟨y1, y2, y3, y4⟩ := y'
  simp only [] at h3 h4
  subst h3
  refine ⟨x'.1, x'.2, hx, runCalls_reach .new ?_ hx, noWrapB_iff.1 h1, ?_, y1, y2, y3, hy, h4⟩
  · intro z hz
    rcases List.mem_append.1 hz with hz | hz
    · exact Example.trio_ok z hz
    · simp only [List.mem_singleton] at hz
      subst hz
      exact ⟨⟨105, by decide⟩, fun _ => rfl⟩
  · intro j hj
    have := List.all_eq_true.1 h2 j (List.mem_range.2 hj)
    simpa using this

end Verif.Cache
