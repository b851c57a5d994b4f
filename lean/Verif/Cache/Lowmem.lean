import Verif.Cache.Autosweep

/-!
C95, at the level of the cache: what a store does when memory is short.
-/

namespace Verif.Cache

open Verif.Map Verif.Shard Function

/-- With two entries of another hash there is one to evict. -/
theorem others_ne_nil {c : Ctx} {m : Tbl} (h : Map.Inv c m) (ho : m.ovf = false) {hash : Nat} {e1 e2 : Ent} (h1 : e1 ∈ m.cont) (h2 : e2 ∈ m.cont) (hne : e1 ≠ e2)
    (hh1 : c.hash24 e1.key ≠ hash) (hh2 : c.hash24 e2.key ≠ hash) : others m hash ≠ [] := by
  obtain ⟨j1, hj1, d1, rfl⟩ := mem_cont.1 h1
  obtain ⟨j2, hj2, d2, rfl⟩ := mem_cont.1 h2
  have hw := h.wf ho
  have key : ∀ j < m.nbuckets, (m.buckets j).dib ≠ 0 → c.hash24 (m.buckets j).ent.key ≠ hash → j ≠ hash % m.nbuckets → others m hash ≠ [] := by
    intro j hj hd hh hne
    have hlt : hash % m.nbuckets < m.nbuckets := Nat.mod_lt _ (by omega)
    have : (m.buckets j).ent ∈ others m hash := by
      unfold others
      refine List.mem_map.2 ⟨m.buckets j, List.mem_filter.2 ⟨List.mem_map.2 ⟨(j + m.nbuckets - hash % m.nbuckets) % m.nbuckets, ?_, ?_⟩, ?_⟩, rfl⟩
      · rw [List.mem_range'_1]
        have h1 : (j + m.nbuckets - hash % m.nbuckets) % m.nbuckets < m.nbuckets := Nat.mod_lt _ (by omega)
        have h2 : (j + m.nbuckets - hash % m.nbuckets) % m.nbuckets ≠ 0 := by
          intro hz
          rcases Nat.lt_or_ge j (hash % m.nbuckets) with hl | hl
          · rw [Nat.mod_eq_of_lt (by omega)] at hz; omega
          · rw [show j + m.nbuckets - hash % m.nbuckets = (j - hash % m.nbuckets) + m.nbuckets by omega, Nat.add_mod_right, Nat.mod_eq_of_lt (by omega)] at hz
            omega
        omega
      · congr 1
        rw [Nat.mod_add_mod]
        have : j + m.nbuckets - hash % m.nbuckets + hash = j + m.nbuckets * (1 + hash / m.nbuckets) := by
          have := Nat.div_add_mod hash m.nbuckets
          rw [Nat.mul_add, Nat.mul_one]
          omega
        rw [this, Nat.add_mul_mod_self_left, Nat.mod_eq_of_lt hj]
      · simp only [decide_eq_true_eq]
        exact ⟨hd, by rw [hw.hash j hj hd]; exact hh⟩
    exact List.ne_nil_of_mem this
  by_cases hx : j1 = hash % m.nbuckets
  · refine key j2 hj2 d2 hh2 fun hy => hne ?_
    rw [hx, hy]
  · exact key j1 hj1 d1 hh1 hx

theorem victim_some {now : Int} {l : List Ent} (h : l ≠ []) : ∃ v, victim now l = some v := by
  match l with
  | [a] => exact ⟨a, rfl⟩
  | a :: b :: l =>
    simp only [victim]
    split
    · exact ⟨_, rfl⟩
    · split
      · exact ⟨_, rfl⟩
      · split <;> exact ⟨_, rfl⟩

theorem assert_val {m : Tbl} {b : Bool} {u : Unit} (h : assert m b = .val u) : b = true := by
  unfold assert at h
  split at h
  · assumption
  · cases h

/-- The number of entries of a shard does not grow. -/
theorem storeOp_lowmem {c : Ctx} (hv : c.Valid) {mem : Mem} {now : Int} {key val : Bytes} {o : StoreOpts} {s : Sh} {q : Res} (h : Map.Inv c s.map) (hlow : o.lowmem = true)
    (hr : storeOp c mem now key val o s = .val q) (ho : q.sh.map.ovf = false) {e1 e2 : Ent} (h1 : e1 ∈ s.map.cont) (h2 : e2 ∈ s.map.cont) (hne : e1 ≠ e2)
    (hh1 : c.hash24 e1.key ≠ c.hash24 key) (hh2 : c.hash24 e2.key ≠ c.hash24 key) : q.sh.map.count ≤ s.map.count := by
  unfold storeOp at hr
  simp only [] at hr
  obtain ⟨expires, _, hr⟩ := out_bind_val hr
  split at hr
  · cases hr
  split at hr
  · cases hr; exact Nat.le_refl _
  obtain ⟨m1, r, hm, hi1, hov1, _, hnone, hsome⟩ := mapInsert_spec (e := mkEnt c key val expires o.flags (s.cas + 1) now) (ok := mem.tbl) hv h
  obtain ⟨_, hx, hr⟩ := out_bind_val hr
  have hx := ofLoop_val hx
  rw [show ({ s with cas := s.cas + 1 } : Sh).map = s.map from rfl, hm] at hx
  obtain rfl := Option.some.inj hx
  cases r with
  | none =>
    simp only [Out.val.injEq] at hr
    subst hr
    rw [hnone rfl]
  | some old0 =>
    obtain ⟨hc1, _, _, _, hins⟩ := hsome old0 rfl
    simp only [] at hr
    have hput : ∀ old entry evs st seen, old0 ≠ none → doPutBack c mem { s with cas := s.cas + 1 } m1 old entry evs st seen = .val q → q.sh.map.count ≤ s.map.count := by
      intro old entry evs st seen hn hq
      unfold doPutBack at hq
      obtain ⟨m2, r2, hm2, _, _, _, _, hsome2⟩ := mapInsert_spec (e := old) (ok := mem.tbl2) hv hi1
      obtain ⟨_, hx, hq⟩ := out_bind_val hq
      have hx := ofLoop_val hx
      rw [hm2] at hx
      obtain rfl := Option.some.inj hx
      simp only [] at hq
      cases r2 with
      | none => cases hq
      | some e2 =>
        obtain ⟨_, hx, hq⟩ := out_bind_val hq
        have hx := eq_of_beq (assert_val hx)
        simp only [Out.val.injEq] at hq
        subst hq
        have := (hsome2 (some entry) (by rw [hx])).1
        rw [if_neg hn] at hc1
        rw [if_neg (by simp)] at this
        simp only []
        omega
    cases old0 with
    | some e =>
      simp only [if_neg (Option.some_ne_none e)] at hc1
      simp only [] at hr
      cases ha : e.alive now with
      | true =>
        simp only [ha, Bool.not_true, Bool.false_eq_true, if_false] at hr
        split at hr
        · exact hput _ _ _ _ _ (by simp) hr
        · split at hr
          · exact hput _ _ _ _ _ (by simp) hr
          · cases hr; simp only []; omega
      | false =>
        simp only [ha, Bool.not_false, if_true] at hr
        split at hr
        · obtain ⟨m2, r2, hm2, _, _, _, hnone2, hsome2⟩ := mapDelete_spec hv hi1 key
          obtain ⟨_, hx, hr⟩ := out_bind_val hr
          have hx := ofLoop_val hx
          rw [hm2] at hx
          obtain rfl := Option.some.inj hx
          obtain ⟨_, hx, hr⟩ := out_bind_val hr
          have := (hsome2 _ (eq_of_beq (assert_val hx))).2.1
          simp only [Out.val.injEq] at hr
          subst hr
          simp only []
          omega
        · split at hr
          · rename_i hx
            simp only [Bool.and_eq_true, decide_eq_true_eq] at hx
            omega
          · cases hr; simp only []; omega
    | none =>
      simp only [if_true] at hc1
      simp only [Bool.false_eq_true, if_false] at hr
      split at hr
      · obtain ⟨m2, r2, hm2, _, _, _, hnone2, hsome2⟩ := mapDelete_spec hv hi1 key
        obtain ⟨_, hx, hr⟩ := out_bind_val hr
        have hx := ofLoop_val hx
        rw [hm2] at hx
        obtain rfl := Option.some.inj hx
        obtain ⟨_, hx, hr⟩ := out_bind_val hr
        have := (hsome2 _ (eq_of_beq (assert_val hx))).2.1
        simp only [Out.val.injEq] at hr
        subst hr
        simp only []
        omega
      · rw [hlow, if_pos (by simp; omega)] at hr
        obtain ⟨⟨m2, ev2⟩, hev, hr⟩ := out_bind_val hr
        simp only [Out.val.injEq] at hr
        subst hr
        simp only [] at ho ⊢
        rcases autoEvict_spec hv hi1 (c.hash24 key) now with ⟨m', evs', ha, hi2, hov2, hsp⟩ | ha
        · rw [hev] at ha
          simp only [Out.val.injEq, Prod.mk.injEq] at ha
          obtain ⟨rfl, rfl⟩ := ha
          have ho1 : m1.ovf = false := by rw [← hov2]; exact ho
          obtain ⟨_, hcont⟩ := hins ho1
          have hoth := others_ne_nil hi1 ho1 (hash := c.hash24 key) (e1 := e1) (e2 := e2) (by rw [hcont]; exact Multiset.mem_add.2 (.inl h1))
            (by rw [hcont]; exact Multiset.mem_add.2 (.inl h2)) hne hh1 hh2
          obtain ⟨v, hvic⟩ := victim_some (now := now) hoth
          have hch := eviction_choice hi1 (c.hash24 key) now hev
          rw [hvic] at hch
          rcases hsp ho1 with ⟨he, _⟩ | ⟨w, ev, _, _, _, hcw⟩
          · rw [he] at hch; simp at hch
          · have hcard := congrArg Multiset.card hcw
            rw [Multiset.card_add, Multiset.card_singleton, ← hi1.cnt ho1, ← hi2.cnt ho] at hcard
            omega
        · rw [hev] at ha; cases ha

theorem count_update {n i : Nat} (hi : i < n) {shs : Shards} {s : Sh} (h : s.map.count ≤ (shs i).map.count) : count n (update shs i s) ≤ count n shs := by
  unfold count
  refine List.sum_le_sum ?_
  intro j _
  unfold countOp
  by_cases hj : j = i
  · subst hj; rw [update_self]; exact h
  · rw [update_of_ne hj]

/-- **C95, partial.**  A store made in low memory does not add to the number of entries of the cache, if the shard of its key holds two keys whose hash is not that of the new
key.  Missing: shards with fewer keys, see `lowmem_grows`. -/
theorem lowmem_does_not_grow_partial {c : Ctx} (hv : c.Valid) {n : Nat} (hn : 0 < n) {mem : Nat → Mem} {now : Int} {key val : Bytes} {o : StoreOpts} {shs : Shards} {r : CRes}
    (h : Reach c n shs) (hok : OpOk mem now (.store key val o)) (hr : exec c n mem now (.store key val o) shs = .val r) (hnw : NoWrap n r.shs) (hlow : o.lowmem = true)
    {k1 k2 : Bytes} (hne : k1 ≠ k2) (h1 : view c n shs k1 ≠ none) (h2 : view c n shs k2 ≠ none)
    (hi1 : shardIdx c n k1 = shardIdx c n key) (hi2 : shardIdx c n k2 = shardIdx c n key)
    (hh1 : c.hash24 k1 ≠ c.hash24 key) (hh2 : c.hash24 k2 ≠ c.hash24 key) : count n r.shs ≤ count n shs := by
  have hnw0 := (h.eff hv hn hok hr hnw).2
  have hidx : shardIdx c n key < n := Nat.mod_lt _ hn
  have hinv := h.allInv hv hn _ hidx
  have hrep := shView_rep hinv (hnw0 _ hidx)
  obtain ⟨e1, he1⟩ := Option.ne_none_iff_exists'.1 h1
  obtain ⟨e2, he2⟩ := Option.ne_none_iff_exists'.1 h2
  unfold view at he1 he2
  rw [hi1] at he1
  rw [hi2] at he2
  obtain ⟨m1, rfl⟩ := (hrep _ _).1 he1
  obtain ⟨m2, rfl⟩ := (hrep _ _).1 he2
  unfold exec onKey at hr
  simp only [] at hr
  obtain ⟨q, hq, hr⟩ := out_bind_val hr
  simp only [Out.val.injEq] at hr
  subst hr
  have ho := hnw _ hidx
  simp only [update_self] at ho
  exact count_update hidx (storeOp_lowmem hv hinv hlow hq ho m1 m2 (fun hx => hne (by rw [hx])) hh1 hh2)

/-- A case of `lowmem_does_not_grow_partial`: two keys, and a third stored in low memory. -/
example : ∃ shs r, Reach Example.ctx2 1 shs ∧ OpOk Example.okMem 103 (.store [2] [20] (Example.cOpts false 0 false false true none)) ∧
    exec Example.ctx2 1 Example.okMem 103 (.store [2] [20] (Example.cOpts false 0 false false true none)) shs = .val r ∧ NoWrap 1 r.shs ∧
    view Example.ctx2 1 shs [1] ≠ none ∧ view Example.ctx2 1 shs [3] ≠ none ∧ Example.ctx2.hash24 [1] ≠ Example.ctx2.hash24 [2] ∧
    Example.ctx2.hash24 [3] ≠ Example.ctx2.hash24 [2] ∧ count 1 shs = 2 ∧ r.status = .inserted ∧ count 1 r.shs = 2 := by
  have hok : OpOk Example.okMem 103 (.store [2] [20] (Example.cOpts false 0 false false true none)) := ⟨⟨0, by decide⟩, fun _ => rfl⟩
  obtain ⟨⟨shs, rs⟩, hr, h1⟩ := Out.of_test (o := runCalls Example.ctx2 1
      ((Example.cond (.store [2] [20] (Example.cOpts false 0 false false true none))).take 2) (newCache Example.ctx2))
    (p := fun x => view Example.ctx2 1 x.1 [1] ≠ none ∧ view Example.ctx2 1 x.1 [3] ≠ none ∧ count 1 x.1 = 2 ∧
      ((exec Example.ctx2 1 Example.okMem 103 (.store [2] [20] (Example.cOpts false 0 false false true none)) x.1).test fun r =>
        noWrapB 1 r.shs = true ∧ r.status = .inserted ∧ count 1 r.shs = 2) = true)
    (by decide +kernel)
  obtain ⟨h2, h3, h4, h5⟩ := h1
  obtain ⟨r, hx, h6⟩ := Out.of_test h5
  exact ⟨shs, r, runCalls_reach .new (fun x hx => Example.cond_ok _ hok x (List.mem_of_mem_take hx)) hr, hok, hx, noWrapB_iff.1 h6.1, h2, h3, by decide, by decide, h4,
    h6.2.1, h6.2.2⟩

/-- **C95** is false for shards with one key: the new key has the same home bucket as the only other one, and that bucket is not looked at; nothing is evicted. -/
theorem lowmem_grows : ∃ shs r, Reach Example.ctx2 1 shs ∧ OpOk Example.okMem 103 (.store [65] [20] (Example.cOpts false 0 false false true none)) ∧
    exec Example.ctx2 1 Example.okMem 103 (.store [65] [20] (Example.cOpts false 0 false false true none)) shs = .val r ∧ NoWrap 1 r.shs ∧
    Example.ctx2.noevict = false ∧ view Example.ctx2 1 shs [1] ≠ none ∧ count 1 shs = 1 ∧ r.status = .inserted ∧ count 1 r.shs = 2 := by
  have hok : OpOk Example.okMem 103 (.store [65] [20] (Example.cOpts false 0 false false true none)) := ⟨⟨0, by decide⟩, fun _ => rfl⟩
  obtain ⟨⟨shs, rs⟩, hr, h1⟩ := Out.of_test (o := runCalls Example.ctx2 1
      ((Example.cond (.store [65] [20] (Example.cOpts false 0 false false true none))).take 1) (newCache Example.ctx2))
    (p := fun x => view Example.ctx2 1 x.1 [1] ≠ none ∧ count 1 x.1 = 1 ∧
      ((exec Example.ctx2 1 Example.okMem 103 (.store [65] [20] (Example.cOpts false 0 false false true none)) x.1).test fun r =>
        noWrapB 1 r.shs = true ∧ r.status = .inserted ∧ count 1 r.shs = 2) = true)
    (by decide +kernel)
  obtain ⟨h2, h3, h4⟩ := h1
  obtain ⟨r, hx, h5⟩ := Out.of_test h4
  exact ⟨shs, r, runCalls_reach .new (fun x hx => Example.cond_ok _ hok x (List.mem_of_mem_take hx)) hr, hok, hx, noWrapB_iff.1 h5.1, rfl, h2, h3, h5.2.1, h5.2.2⟩

end Verif.Cache
