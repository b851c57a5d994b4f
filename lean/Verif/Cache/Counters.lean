import Verif.Cache.Iter

/-!
C13: the counters.
-/

namespace Verif.Cache

open Verif.Map Verif.Shard Function

/-- `pogocache_total`, `/repo/src/pogocache.c:1855-1878`, of all shards. -/
def total (n : Nat) (shs : Shards) : Nat := ((List.range n).map fun i => totalOp (shs i)).sum

/-- `pogocache_size` with `entriesonly`, `/repo/src/pogocache.c:1894-1917`, of all shards (sums of `size_t`). -/
def entSize (n : Nat) (shs : Shards) : Nat := ((List.range n).map fun i => sizeOp true (shs i)).sum % 2 ^ 64

/-! ### The entry count -/

theorem cont_keys {c : Ctx} {s : Sh} (h : Inv c s.map) (ho : s.map.ovf = false) (k : Bytes) :
    k ∈ (s.map.cont.map Ent.key).toList ↔ shView s k ≠ none := by
  rw [Multiset.mem_toList, Multiset.mem_map]
  have hr := shView_rep h ho
  constructor
  · rintro ⟨e, he, rfl⟩
    rw [(hr e.key e).2 ⟨he, rfl⟩]; simp
  · intro hne
    cases hs : shView s k with
    | none => exact absurd hs hne
    | some e => exact ⟨e, ((hr k e).1 hs).1, ((hr k e).1 hs).2⟩

/-- **C13.**  The entry count is the number of distinct stored keys. -/
theorem count_exact {c : Ctx} (hv : c.Valid) {n : Nat} (hn : 0 < n) {shs : Shards} (h : Reach c n shs) (hnw : NoWrap n shs) :
    ∃ L : List Bytes, L.Nodup ∧ (∀ k, k ∈ L ↔ view c n shs k ≠ none) ∧ count n shs = L.length := by
  have hpl := h.placed hv hn hnw
  have hai := h.allInv hv hn
  refine ⟨(List.range n).flatMap fun i => ((shs i).map.cont.map Ent.key).toList, ?_, ?_, ?_⟩
  · rw [List.nodup_flatMap]
    constructor
    · intro i hi
      have hi := List.mem_range.1 hi
      have := (hai i hi).nodup (hnw i hi)
      rw [← Multiset.coe_nodup, Multiset.coe_toList]
      exact this
    · refine List.Nodup.pairwise_of_forall_ne List.nodup_range ?_
      intro i hi j hj hij
      have hi := List.mem_range.1 hi
      have hj := List.mem_range.1 hj
      intro k hki hkj
      rw [cont_keys (hai i hi) (hnw i hi)] at hki
      rw [cont_keys (hai j hj) (hnw j hj)] at hkj
      obtain ⟨e, he⟩ := Option.ne_none_iff_exists'.1 hki
      obtain ⟨e', he'⟩ := Option.ne_none_iff_exists'.1 hkj
      exact hij ((hpl i hi k e he).symm.trans (hpl j hj k e' he'))
  · intro k
    simp only [List.mem_flatMap, List.mem_range]
    constructor
    · rintro ⟨i, hi, hk⟩
      rw [cont_keys (hai i hi) (hnw i hi)] at hk
      obtain ⟨e, he⟩ := Option.ne_none_iff_exists'.1 hk
      unfold view
      rw [hpl i hi k e he]; exact hk
    · intro hk
      have hi := shardIdx_lt c hn k
      exact ⟨_, hi, (cont_keys (hai _ hi) (hnw _ hi) k).2 hk⟩
  · rw [List.length_flatMap]
    unfold count countOp
    congr 1
    apply List.map_congr_left
    intro i hi
    have hi := List.mem_range.1 hi
    rw [(hai i hi).cnt (hnw i hi)]
    simp

/-! ### The size and the total -/

/-- The size counter is the sum of the sizes of the entries. -/
def SizeOk (m : Tbl) : Prop := m.entsize = (m.cont.map Ent.size).sum % 2 ^ 64

theorem size_ins {c : Ctx} (hv : c.Valid) {m m' : Tbl} {e : Ent} {ok : Bool} {r : Option (Option Ent)} (h : Inv c m)
    (hr : mapInsert c m e ok = some (m', r)) (ho : m'.ovf = false) (hs : SizeOk m) : SizeOk m' := by
  obtain ⟨m1, r1, hr1, _, _, _, hnone, hsome⟩ := mapInsert_spec (e := e) (ok := ok) hv h
  rw [hr] at hr1
  simp only [Option.some.injEq, Prod.mk.injEq] at hr1
  obtain ⟨rfl, rfl⟩ := hr1
  cases r with
  | none => rw [hnone rfl]; exact hs
  | some old =>
    obtain ⟨_, _, h3, _, h5⟩ := hsome old rfl
    have h5 := h5 ho
    unfold SizeOk at hs ⊢
    rw [h3, hs]
    cases old with
    | none =>
      rw [h5.2]
      simp only [subOld, add64, Multiset.map_add, Multiset.sum_add, Multiset.map_singleton, Multiset.sum_singleton]
      omega
    | some o =>
      have := congrArg (fun s => (Multiset.map Ent.size s).sum) h5.2.2
      simp only [Multiset.map_add, Multiset.sum_add, Multiset.map_singleton, Multiset.sum_singleton] at this
      simp only [subOld, add64, sub64]
      omega

theorem size_del {c : Ctx} (hv : c.Valid) {m m' : Tbl} {key : Bytes} {r : Option Ent} (h : Inv c m)
    (hr : mapDelete c m key = some (m', r)) (ho : m.ovf = false) (hs : SizeOk m) : SizeOk m' := by
  obtain ⟨m1, r1, hr1, _, _, _, hnone, hsome⟩ := mapDelete_spec hv h key
  rw [hr] at hr1
  simp only [Option.some.injEq, Prod.mk.injEq] at hr1
  obtain ⟨rfl, rfl⟩ := hr1
  cases r with
  | none => rw [(hnone rfl).1]; exact hs
  | some o =>
    obtain ⟨_, _, h3, _, _, h5⟩ := hsome o rfl
    have := congrArg (fun s => (Multiset.map Ent.size s).sum) (h5 ho)
    simp only [Multiset.map_add, Multiset.sum_add, Multiset.map_singleton, Multiset.sum_singleton] at this
    unfold SizeOk at hs ⊢
    rw [h3, hs]
    simp only [sub64]
    omega

/-- What an insertion and a deletion do to invariant, wrap flag and total. -/
theorem ins_facts {c : Ctx} (hv : c.Valid) {m m' : Tbl} {e : Ent} {ok : Bool} {r : Option (Option Ent)} (h : Inv c m)
    (hr : mapInsert c m e ok = some (m', r)) : Inv c m' ∧ (m'.ovf = false → m.ovf = false) ∧
      m'.total = m.total + (if r = some none then 1 else 0) := by
  obtain ⟨m1, r1, hr1, h1, h2, _, hnone, hsome⟩ := mapInsert_spec (e := e) (ok := ok) hv h
  rw [hr] at hr1
  simp only [Option.some.injEq, Prod.mk.injEq] at hr1
  obtain ⟨rfl, rfl⟩ := hr1
  refine ⟨h1, h2, ?_⟩
  cases r with
  | none => rw [hnone rfl]; simp
  | some old =>
    rw [(hsome old rfl).2.1]
    cases old <;> simp

theorem del_facts {c : Ctx} (hv : c.Valid) {m m' : Tbl} {key : Bytes} {r : Option Ent} (h : Inv c m)
    (hr : mapDelete c m key = some (m', r)) : Inv c m' ∧ m'.ovf = m.ovf ∧ m'.total = m.total := by
  obtain ⟨m1, r1, hr1, h1, h2, h3, _, _⟩ := mapDelete_spec hv h key
  rw [hr] at hr1
  simp only [Option.some.injEq, Prod.mk.injEq] at hr1
  obtain ⟨rfl, rfl⟩ := hr1
  exact ⟨h1, h2, h3⟩

theorem shrink_facts {c : Ctx} (hv : c.Valid) {m m' : Tbl} {ok : Bool} (h : Inv c m)
    (hr : tryShrink c m ok = some m') : m'.total = m.total ∧ (m'.ovf = false → m.ovf = false ∧ (SizeOk m → SizeOk m')) := by
  obtain ⟨m1, hr1, h1, _, h3, h4, h5⟩ := tryShrink_spec hv h ok
  rw [hr] at hr1
  simp only [Option.some.injEq] at hr1
  subst hr1
  refine ⟨h3, fun ho => ?_⟩
  obtain ⟨h6, h7⟩ := h5 ho
  refine ⟨h6, fun hs => ?_⟩
  unfold SizeOk at hs ⊢
  rw [h4, h7]; exact hs

theorem ofLoop_val {α : Type} {x : Option α} {a : α} (h : ofLoop x = .val a) : x = some a := by
  cases x with
  | none => simp [ofLoop] at h
  | some b => simp only [ofLoop, Out.val.injEq] at h; rw [h]

theorem deleteOp_counters {c : Ctx} (hv : c.Valid) {mem : Mem} {now : Int} {key : Bytes} {cb : Option (Ent → Bool)}
    {s : Sh} {r : Res} (h : Inv c s.map) (hr : deleteOp c mem now key cb s = .val r) :
    r.sh.map.total = s.map.total + (if r.status = .canceled then 1 else 0) ∧
    (r.sh.map.ovf = false → SizeOk s.map → SizeOk r.sh.map) := by
  unfold deleteOp at hr
  obtain ⟨⟨m1, q⟩, h1, hr⟩ := out_bind_val hr
  have h1 := ofLoop_val h1
  obtain ⟨i1, o1, t1⟩ := del_facts hv h h1
  cases q with
  | none =>
    simp only [Out.val.injEq] at hr
    subst hr
    simp
  | some entry =>
    simp only [] at hr
    split at hr
    · obtain ⟨m2, h2, hr⟩ := out_bind_val hr
      obtain ⟨t2, g2⟩ := shrink_facts hv i1 (ofLoop_val h2)
      simp only [Out.val.injEq] at hr
      subst hr
      refine ⟨by simp [t2, t1], fun ho hs => ?_⟩
      obtain ⟨ho2, hs2⟩ := g2 ho
      exact hs2 (size_del hv h h1 (o1 ▸ ho2) hs)
    · split at hr
      · obtain ⟨⟨m2, q2⟩, h2, hr⟩ := out_bind_val hr
        obtain ⟨i2, o2, t2⟩ := ins_facts hv i1 (ofLoop_val h2)
        cases q2 with
        | none => simp at hr
        | some old =>
          obtain ⟨_, h3, hr⟩ := out_bind_val hr
          simp only [Out.val.injEq] at hr
          subst hr
          have : old = none := by
            unfold assert at h3
            cases old with
            | none => rfl
            | some x => simp at h3
          subst this
          refine ⟨by simp [t2, t1], fun ho hs => ?_⟩
          exact size_ins hv i1 (ofLoop_val h2) ho (size_del hv h h1 (o1 ▸ o2 ho) hs)
      · obtain ⟨m2, h2, hr⟩ := out_bind_val hr
        obtain ⟨t2, g2⟩ := shrink_facts hv i1 (ofLoop_val h2)
        simp only [Out.val.injEq] at hr
        subst hr
        refine ⟨by simp [t2, t1], fun ho hs => ?_⟩
        obtain ⟨ho2, hs2⟩ := g2 ho
        exact hs2 (size_del hv h h1 (o1 ▸ ho2) hs)

theorem evict_counters {c : Ctx} (hv : c.Valid) {m m' : Tbl} {e : Ent} (h : Inv c m) (hr : evictEntry c m e = .val m') :
    m'.ovf = m.ovf ∧ m'.total = m.total ∧ (m.ovf = false → SizeOk m → SizeOk m') := by
  unfold evictEntry at hr
  obtain ⟨⟨m1, q⟩, h1, hr⟩ := out_bind_val hr
  obtain ⟨_, _, hr⟩ := out_bind_val hr
  simp only [Out.val.injEq] at hr
  subst hr
  obtain ⟨i1, o1, t1⟩ := del_facts hv h (ofLoop_val h1)
  exact ⟨o1, t1, fun ho => size_del hv h (ofLoop_val h1) ho⟩

theorem autoEvict_counters {c : Ctx} (hv : c.Valid) {m m' : Tbl} {hash : Nat} {now : Int} {evs : List Ev} (h : Inv c m)
    (hr : autoEvict c m hash now = .val (m', evs)) :
    m'.ovf = m.ovf ∧ m'.total = m.total ∧ (m.ovf = false → SizeOk m → SizeOk m') := by
  unfold autoEvict at hr
  split at hr
  · obtain ⟨m1, h1, hr⟩ := out_bind_val hr
    simp only [Out.val.injEq, Prod.mk.injEq] at hr
    obtain ⟨rfl, _⟩ := hr
    exact evict_counters hv h h1
  · obtain ⟨m1, h1, hr⟩ := out_bind_val hr
    simp only [Out.val.injEq, Prod.mk.injEq] at hr
    obtain ⟨rfl, _⟩ := hr
    exact evict_counters hv h h1
  · obtain ⟨m1, h1, hr⟩ := out_bind_val hr
    simp only [Out.val.injEq, Prod.mk.injEq] at hr
    obtain ⟨rfl, _⟩ := hr
    exact evict_counters hv h h1
  · simp only [Out.val.injEq, Prod.mk.injEq] at hr
    obtain ⟨rfl, _⟩ := hr
    exact ⟨rfl, rfl, fun _ hs => hs⟩

theorem doPutBack_counters {c : Ctx} (hv : c.Valid) {mem : Mem} {s : Sh} {m : Tbl} {old entry : Ent} {evs : List Ev}
    {st : Status} {seen : List Ent} {r : Res} (h : Inv c m) (hr : doPutBack c mem s m old entry evs st seen = .val r) :
    r.status = st ∧ (r.sh.map.ovf = false → m.ovf = false) ∧ r.sh.map.total = m.total ∧
      (r.sh.map.ovf = false → SizeOk m → SizeOk r.sh.map) := by
  unfold doPutBack at hr
  obtain ⟨⟨m2, q2⟩, h2, hr⟩ := out_bind_val hr
  obtain ⟨i2, o2, t2⟩ := ins_facts hv h (ofLoop_val h2)
  cases q2 with
  | none => simp at hr
  | some e =>
    obtain ⟨_, h3, hr⟩ := out_bind_val hr
    simp only [Out.val.injEq] at hr
    subst hr
    have : e = some entry := by
      unfold assert at h3
      by_contra hc
      rw [if_neg (by simpa using hc)] at h3
      simp at h3
    subst this
    exact ⟨rfl, o2, by simp [t2], fun ho hs => size_ins hv h (ofLoop_val h2) ho hs⟩

theorem storeOp_counters {c : Ctx} (hv : c.Valid) {mem : Mem} {now : Int} {key val : Bytes} {o : StoreOpts}
    {s : Sh} {r : Res} (h : Inv c s.map) (hr : storeOp c mem now key val o s = .val r) (ho : r.sh.map.ovf = false) :
    r.sh.map.total = s.map.total + (if (r.status = .inserted ∨ r.status = .notfound) ∧ shView s key = none then 1 else 0) ∧
    (SizeOk s.map → SizeOk r.sh.map) := by
  unfold storeOp at hr
  obtain ⟨ex, hex, hr⟩ := out_bind_val hr
  split at hr
  · simp at hr
  · simp only [] at hr
    split at hr
    · simp only [Out.val.injEq] at hr
      subst hr
      simp
    · obtain ⟨⟨m1, q⟩, h1, hr⟩ := out_bind_val hr
      have h1 := ofLoop_val h1
      obtain ⟨i1, o1, t1⟩ := ins_facts hv h h1
      cases q with
      | none =>
        simp only [Out.val.injEq] at hr
        subst hr
        exact ⟨by simp [t1], fun hs => size_ins hv h h1 ho hs⟩
      | some old0 =>
        simp only [] at hr
        have hold : m1.ovf = false → shView s key = old0 := by
          intro hm
          obtain ⟨m', r', hr', hi', _, _, _, hs'⟩ := mapInsert_spec (e := mkEnt c key val ex o.flags (s.cas + 1) now) (ok := mem.tbl) hv h
          rw [h1] at hr'
          simp only [Option.some.injEq, Prod.mk.injEq] at hr'
          obtain ⟨rfl, rfl⟩ := hr'
          have := (rep_insert (shView_rep h (o1 hm)) ((hs' old0 rfl).2.2.2.2 hm) (hi'.nodup hm)).1
          exact this.symm
        split at hr
        · rename_i old hod
          have hne : old0 ≠ none := by
            intro hc; subst hc; simp at hod
          have hts : m1.total = s.map.total := by rw [t1, if_neg (by simpa using hne)]; rfl
          split at hr
          · obtain ⟨hst, h2, h3, h4⟩ := doPutBack_counters hv i1 hr
            refine ⟨by rw [hst, h3, hts]; simp, fun hs => h4 ho (size_ins hv h h1 (h2 ho) hs)⟩
          · split at hr
            · obtain ⟨hst, h2, h3, h4⟩ := doPutBack_counters hv i1 hr
              refine ⟨by rw [hst, h3, hts]; simp, fun hs => h4 ho (size_ins hv h h1 (h2 ho) hs)⟩
            · simp only [Out.val.injEq] at hr
              subst hr
              exact ⟨by simp [hts], fun hs => size_ins hv h h1 ho hs⟩
        · have hfin : ∀ st : Status, (st = .inserted ∨ st = .notfound) → m1.ovf = false →
              m1.total = s.map.total + (if (st = .inserted ∨ st = .notfound) ∧ shView s key = none then 1 else 0) := by
            intro st hst hm
            rw [t1, hold hm]
            simp [hst]
          split at hr
          · obtain ⟨⟨m2, q2⟩, h2, hr⟩ := out_bind_val hr
            obtain ⟨_, _, hr⟩ := out_bind_val hr
            simp only [Out.val.injEq] at hr
            subst hr
            obtain ⟨i2, o2, t2⟩ := del_facts hv i1 (ofLoop_val h2)
            have hm : m1.ovf = false := o2 ▸ ho
            exact ⟨t2.trans (hfin .notfound (Or.inr rfl) hm), fun hs => size_del hv i1 (ofLoop_val h2) hm (size_ins hv h h1 hm hs)⟩
          · split at hr
            · obtain ⟨⟨m2, ev2⟩, h2, hr⟩ := out_bind_val hr
              simp only [Out.val.injEq] at hr
              subst hr
              obtain ⟨o2, t2, s2⟩ := autoEvict_counters hv i1 h2
              have hm : m1.ovf = false := o2 ▸ ho
              exact ⟨t2.trans (hfin .inserted (Or.inl rfl) hm), fun hs => s2 hm (size_ins hv h h1 hm hs)⟩
            · simp only [Out.val.injEq] at hr
              subst hr
              exact ⟨hfin .inserted (Or.inl rfl) ho, fun hs => size_ins hv h h1 ho hs⟩

theorem loadOp_counters {c : Ctx} (hv : c.Valid) {mem : Mem} {now : Int} {key : Bytes} {o : LoadOpts}
    {s : Sh} {r : Res} (h : Inv c s.map) (hr : loadOp c mem now key o s = .val r) :
    r.sh.map.total = s.map.total ∧ (r.evs = [] → SizeOk s.map → SizeOk r.sh.map) := by
  unfold loadOp at hr
  obtain ⟨g, hg, hr⟩ := out_bind_val hr
  cases g with
  | none =>
    simp only [Out.val.injEq] at hr
    subst hr
    exact ⟨rfl, fun _ hs => hs⟩
  | some i =>
    simp only [] at hr
    obtain ⟨g', hg', hsome, _⟩ := getBucket_spec hv h key
    rw [ofLoop_val hg] at hg'
    simp only [Option.some.injEq] at hg'
    subst hg'
    obtain ⟨hi, hd, hk⟩ := hsome i rfl
    have hset : ∀ e : Ent, e.key = key → e.size = (s.map.buckets i).ent.size → SizeOk s.map → SizeOk (setEntry s.map i e) := by
      intro e he hsz hs
      have := (setEntry_spec h hi hd (e := e) (by rw [he, hk])).2.2.2
      have := congrArg (fun s => (Multiset.map Ent.size s).sum) this
      simp only [Multiset.map_add, Multiset.sum_add, Multiset.map_singleton, Multiset.sum_singleton, hsz] at this
      unfold SizeOk at hs ⊢
      show s.map.entsize = _
      rw [hs]
      congr 1
      omega
    split at hr
    · obtain ⟨m, hm, hr⟩ := out_bind_val hr
      obtain ⟨m', hm', _, _, _, ht, _⟩ := delbkt_spec hv h hi hd
      rw [ofLoop_val hm] at hm'
      simp only [Option.some.injEq] at hm'
      subst hm'
      simp only [Out.val.injEq] at hr
      subst hr
      exact ⟨ht, by simp⟩
    · generalize he1 : (if o.notouch = true then (s.map.buckets i).ent else { (s.map.buckets i).ent with time := now }) = e1 at hr
      have hk1 : e1.key = key := by rw [← he1]; split <;> exact hk
      have hs1 : e1.size = (s.map.buckets i).ent.size := by rw [← he1]; split <;> rfl
      split at hr
      · simp only [Out.val.injEq] at hr
        subst hr
        exact ⟨rfl, fun _ => hset e1 hk1 hs1⟩
      · split at hr
        · simp only [Out.val.injEq] at hr
          subst hr
          exact ⟨rfl, fun _ => hset e1 hk1 hs1⟩
        · split at hr
          · simp only [Out.val.injEq] at hr
            subst hr
            exact ⟨rfl, fun _ => hset e1 hk1 hs1⟩
          · simp only [Out.val.injEq] at hr
            subst hr
            exact ⟨rfl, by simp⟩

theorem scanLoop_entsize {c : Ctx} (hv : c.Valid) {now : Int} {act : List Ent → Ent → Act} {fuel i : Nat} {st st' : Scan}
    (h : Inv c st.map) (hr : scanLoop now act fuel i st = .val st') : st'.map.entsize = st.map.entsize ∧ st'.map.total = st.map.total := by
  induction fuel generalizing i st with
  | zero => simp [scanLoop] at hr
  | succ fuel ih =>
    unfold scanLoop at hr
    by_cases hi : i < st.map.nbuckets
    · rw [if_pos hi] at hr
      simp only [] at hr
      split at hr
      · exact ih h hr
      · rename_i hd
        obtain ⟨m, hm, him, _, _, htot, hes, _⟩ := delbkt_spec hv h hi hd
        split at hr
        · rw [hm] at hr
          obtain ⟨h1, h2⟩ := (fun a => ih a hr) him
          exact ⟨h1.trans hes, h2.trans htot⟩
        · split at hr
          · exact (fun a => ih a hr) h
          · simp only [Out.val.injEq] at hr
            subst hr; exact ⟨rfl, rfl⟩
          · rw [hm] at hr
            obtain ⟨h1, h2⟩ := (fun a => ih a hr) him
            exact ⟨h1.trans hes, h2.trans htot⟩
          · rw [hm] at hr
            simp only [ofLoop, Out.bind, Out.val.injEq] at hr
            subst hr
            exact ⟨hes, htot⟩
    · rw [if_neg hi] at hr
      simp only [Out.val.injEq] at hr
      subst hr; exact ⟨rfl, rfl⟩

theorem scan_counters {c : Ctx} (hv : c.Valid) {now : Int} {act : List Ent → Ent → Act} {s : Sh} {st : Scan} {ok : Bool} {m : Tbl}
    (h : Inv c s.map) (h1 : scanLoop now act (scanFuel s.map) 0 ⟨s.map, [], [], false, 0⟩ = .val st)
    (h2 : tryShrink c st.map ok = some m) :
    m.total = s.map.total ∧ (m.ovf = false → st.evs = [] → SizeOk s.map → SizeOk m) := by
  obtain ⟨e1, t1⟩ := scanLoop_entsize hv (st := ⟨s.map, [], [], false, 0⟩) h h1
  obtain ⟨st', g1, g2, g3, g4, g5, g6, g7, g8⟩ :=
    scanLoop_spec hv now act (scanFuel s.map) 0 ⟨s.map, [], [], false, 0⟩ h rfl (by unfold scanFuel; simp)
      (fun _ => False) (by intro j hj; omega)
  rw [h1] at g1
  simp only [Out.val.injEq] at g1
  subst g1
  obtain ⟨t2, o2⟩ := shrink_facts hv g2 h2
  refine ⟨t2.trans t1, fun ho hev hs => ?_⟩
  obtain ⟨ho1, hk⟩ := o2 ho
  apply hk
  have ho0 : s.map.ovf = false := g3 ▸ ho1
  obtain ⟨evs, seen, hst, _⟩ := g8 ho0
  have : evs = [] := by
    have := hst.evs_eq
    rw [hev] at this
    simpa using this.symm
  subst this
  have hc := hst.cont
  unfold SizeOk at hs ⊢
  rw [e1]
  simp only [List.flatMap_nil, Multiset.coe_nil, add_zero] at hc
  rw [hc]
  exact hs

theorem iterOp_counters {c : Ctx} (hv : c.Valid) {mem : Mem} {now : Int} {cb : Option (List Ent → Ent → Act)}
    {s : Sh} {r : Res} (h : Inv c s.map) (hr : iterOp c mem now cb s = .val r) :
    r.sh.map.total = s.map.total ∧ (r.sh.map.ovf = false → r.evs = [] → SizeOk s.map → SizeOk r.sh.map) := by
  unfold iterOp at hr
  obtain ⟨st, h1, hr⟩ := out_bind_val hr
  obtain ⟨m, h2, hr⟩ := out_bind_val hr
  simp only [Out.val.injEq] at hr
  subst hr
  exact scan_counters hv h h1 (ofLoop_val h2)

theorem sweepOp_counters {c : Ctx} (hv : c.Valid) {mem : Mem} {now : Int} {sw kp : Nat}
    {s : Sh} {r : Res} (h : Inv c s.map) (hr : sweepOp c mem now s = .val (r, sw, kp)) :
    r.sh.map.total = s.map.total ∧ (r.sh.map.ovf = false → r.evs = [] → SizeOk s.map → SizeOk r.sh.map) := by
  unfold sweepOp at hr
  obtain ⟨st, h1, hr⟩ := out_bind_val hr
  obtain ⟨m, h2, hr⟩ := out_bind_val hr
  simp only [Out.val.injEq, Prod.mk.injEq] at hr
  obtain ⟨rfl, _⟩ := hr
  exact scan_counters hv h h1 (ofLoop_val h2)

theorem clearOp_counters {c : Ctx} {mem : Mem} {now : Int} {s : Sh} {r : Res} (hr : clearOp c mem now s = .val r) :
    r.sh.map.total = s.map.total ∧ SizeOk r.sh.map := by
  unfold clearOp at hr
  simp only [] at hr
  split at hr
  · simp only [Out.val.injEq] at hr
    subst hr
    refine ⟨rfl, ?_⟩
    unfold SizeOk
    rw [show ({ mapInit c 64 with total := s.map.total, ovf := s.map.ovf } : Tbl).cont = 0 from cont_init c 64]
    simp [mapInit]
  · simp at hr

/-! ### The cache -/

theorem sum_update {n i : Nat} (hi : i < n) (f : Sh → Nat) (shs : Shards) (s : Sh) :
    ((List.range n).map fun j => f (update shs i s j)).sum + f (shs i) = ((List.range n).map fun j => f (shs j)).sum + f s := by
  induction n with
  | zero => omega
  | succ n ih =>
    rw [List.range_succ, List.map_append, List.map_append, List.sum_append, List.sum_append]
    simp only [List.map_cons, List.map_nil, List.sum_cons, List.sum_nil]
    by_cases hin : i = n
    · subst hin
      rw [update_self]
      have : (List.range i).map (fun j => f (update shs i s j)) = (List.range i).map fun j => f (shs j) := by
        apply List.map_congr_left
        intro j hj
        rw [update_of_ne (by have := List.mem_range.1 hj; omega)]
      rw [this]
      omega
    · rw [update_of_ne (Ne.symm hin)]
      have := ih (by omega)
      omega

/-- What a call adds to the total. -/
def counted (c : Ctx) (n : Nat) (shs : Shards) (op : Op) (st : Status) : Nat :=
  match op with
  | .delete _ _ => if st = .canceled then 1 else 0
  | .store k _ _ => if (st = .inserted ∨ st = .notfound) ∧ view c n shs k = none then 1 else 0
  | _ => 0

/-- Calls that keep the size counter in step: stores, deletes and clears always, the others if they did not
remove or rewrite an entry. -/
def SizedCall (op : Op) (r : CRes) : Prop :=
  match op with
  | .store _ _ _ | .delete _ _ | .clear _ => True
  | _ => r.evs = []

/-- All size counters are right. -/
def AllSized (n : Nat) (shs : Shards) : Prop := ∀ i, i < n → SizeOk (shs i).map

theorem AllSized.put {n : Nat} {shs : Shards} (h : AllSized n shs) {i : Nat} {s : Sh} (hs : i < n → SizeOk s.map) :
    AllSized n (update shs i s) := by
  intro j hj
  by_cases hji : j = i
  · subst hji; rw [update_self]; exact hs hj
  · rw [update_of_ne hji]; exact h j hj

theorem total_put {n i : Nat} (hi : i < n) {shs : Shards} {s : Sh} {d : Nat} (h : s.map.total = (shs i).map.total + d) :
    total n (update shs i s) = total n shs + d := by
  have := sum_update hi totalOp shs s
  unfold total
  unfold totalOp at this ⊢
  rw [h] at this
  omega

theorem onKey_counters {c : Ctx} {n : Nat} (hn : 0 < n) {key : Bytes} {op : Sh → Out Res} {shs : Shards}
    {r : CRes} (hr : onKey c n key op shs = .val r) (hnw : NoWrap n r.shs) {d : Nat} {P : Prop}
    (ho : ∀ q, op (shs (shardIdx c n key)) = .val q → q.sh.map.ovf = false → q.status = r.status → q.evs = r.evs →
      q.sh.map.total = (shs (shardIdx c n key)).map.total + d ∧ (P → SizeOk (shs (shardIdx c n key)).map → SizeOk q.sh.map)) :
    total n r.shs = total n shs + d ∧ (P → AllSized n shs → AllSized n r.shs) := by
  have hi := shardIdx_lt c hn key
  obtain ⟨q, hq, rfl⟩ := onKey_val hr
  obtain ⟨h1, h2⟩ := ho q hq (hnw.self hi) rfl rfl
  exact ⟨total_put hi h1, fun hp hs => hs.put fun _ => h2 hp (hs _ hi)⟩

theorem iterShards_counters {c : Ctx} (hv : c.Valid) {n : Nat} {mem : Nat → Mem} {now : Int}
    {cb : Option (List Ent → Ent → Act)} {is : List Nat} (hnd : is.Nodup) (his : ∀ i ∈ is, i < n) {acc : List Ent}
    {shs : Shards} (h : AllInv c n shs) {r : CRes} (hr : iterShards c mem now cb is acc shs = .val r) (hnw : NoWrap n r.shs) :
    total n r.shs = total n shs ∧ (r.evs = [] → AllSized n shs → AllSized n r.shs) := by
  induction is generalizing acc shs r with
  | nil =>
    simp only [iterShards, Out.val.injEq] at hr
    subst hr
    exact ⟨rfl, fun _ hs => hs⟩
  | cons i is ih =>
    have hi := his i (by simp)
    have hnd' := (List.nodup_cons.1 hnd).2
    have his' := fun j (hj : j ∈ is) => his j (by simp [hj])
    unfold iterShards at hr
    obtain ⟨q, hq, hr⟩ := out_bind_val hr
    obtain ⟨h1, h2⟩ := iterOp_counters hv (h i hi) hq
    obtain ⟨q', hq', he'⟩ := iterOp_eff hv (mem i) now (cb.map fun f l e => f (acc ++ l) e) (h i hi)
    rw [hq] at hq'
    simp only [Out.val.injEq] at hq'
    subst hq'
    have ht := total_put (s := q.sh) (d := 0) hi (by simpa using h1)
    simp only [] at hr
    split at hr
    · simp only [Out.val.injEq] at hr
      subst hr
      exact ⟨ht, fun he hs => hs.put fun _ => h2 (hnw.self hi) he (hs i hi)⟩
    · obtain ⟨q2, hq2, hr⟩ := out_bind_val hr
      simp only [Out.val.injEq] at hr
      subst hr
      have hnw1 : NoWrap n (update shs i q.sh) := by
        obtain ⟨r', hr', _, hx⟩ := iterShards_eff hv mem now cb is hnd' his' (acc ++ q.seen) (update shs i q.sh) (h.put he'.1)
        rw [hq2] at hr'
        simp only [Out.val.injEq] at hr'
        subst hr'
        exact (hx hnw).1
      obtain ⟨h3, h4⟩ := ih hnd' his' (h.put he'.1) hq2 hnw
      refine ⟨h3.trans ht, fun he hs => ?_⟩
      simp only [List.append_eq_nil_iff] at he
      exact h4 he.2 (hs.put fun _ => h2 (hnw1.self hi) he.1 (hs i hi))

theorem sweepShards_counters {c : Ctx} (hv : c.Valid) {n : Nat} {mem : Nat → Mem} {now : Int}
    {is : List Nat} (his : ∀ i ∈ is, i < n) {shs : Shards} (h : AllInv c n shs) {r : CRes} {sw kp : Nat}
    (hr : sweepShards c mem now is shs = .val (r, sw, kp)) (hnw : NoWrap n r.shs) :
    total n r.shs = total n shs ∧ (r.evs = [] → AllSized n shs → AllSized n r.shs) := by
  induction is generalizing shs r sw kp with
  | nil =>
    simp only [sweepShards, Out.val.injEq, Prod.mk.injEq] at hr
    obtain ⟨rfl, _⟩ := hr
    exact ⟨rfl, fun _ hs => hs⟩
  | cons i is ih =>
    have hi := his i (by simp)
    have his' := fun j (hj : j ∈ is) => his j (by simp [hj])
    unfold sweepShards at hr
    obtain ⟨⟨q, sw1, kp1⟩, hq, hr⟩ := out_bind_val hr
    obtain ⟨h1, h2⟩ := sweepOp_counters hv (h i hi) hq
    obtain ⟨q', _, _, hq', he'⟩ := sweepOp_eff hv (mem i) now (h i hi)
    rw [hq] at hq'
    simp only [Out.val.injEq, Prod.mk.injEq] at hq'
    obtain ⟨rfl, _⟩ := hq'
    have ht := total_put (s := q.sh) (d := 0) hi (by simpa using h1)
    obtain ⟨⟨q2, sw2, kp2⟩, hq2, hr⟩ := out_bind_val hr
    simp only [Out.val.injEq, Prod.mk.injEq] at hr
    obtain ⟨rfl, _⟩ := hr
    have hnw1 : NoWrap n (update shs i q.sh) := by
      obtain ⟨r', _, _, hr', _, _, hx⟩ := sweepShards_eff hv mem now is his' (update shs i q.sh) (h.put he'.1)
      rw [hq2] at hr'
      simp only [Out.val.injEq, Prod.mk.injEq] at hr'
      obtain ⟨rfl, _⟩ := hr'
      exact (hx hnw).1
    obtain ⟨h3, h4⟩ := ih his' (h.put he'.1) hq2 hnw
    refine ⟨h3.trans ht, fun he hs => ?_⟩
    simp only [List.append_eq_nil_iff] at he
    exact h4 he.2 (hs.put fun _ => h2 (hnw1.self hi) he.1 (hs i hi))

theorem clearShards_counters {c : Ctx} {n : Nat} {mem : Nat → Mem} {now : Int}
    {is : List Nat} (his : ∀ i ∈ is, i < n) {shs : Shards} {r : CRes}
    (hr : clearShards c mem now is shs = .val r) :
    total n r.shs = total n shs ∧ (AllSized n shs → AllSized n r.shs) := by
  induction is generalizing shs r with
  | nil =>
    simp only [clearShards, Out.val.injEq] at hr
    subst hr
    exact ⟨rfl, fun hs => hs⟩
  | cons i is ih =>
    have hi := his i (by simp)
    have his' := fun j (hj : j ∈ is) => his j (by simp [hj])
    unfold clearShards at hr
    obtain ⟨q, hq, hr⟩ := out_bind_val hr
    obtain ⟨h1, h2⟩ := clearOp_counters hq
    have ht := total_put (s := q.sh) (d := 0) hi (by simpa using h1)
    obtain ⟨q2, hq2, hr⟩ := out_bind_val hr
    simp only [Out.val.injEq] at hr
    subst hr
    obtain ⟨h3, h4⟩ := ih his' hq2
    exact ⟨h3.trans ht, fun hs => h4 (hs.put fun _ => h2)⟩

theorem exec_counters {c : Ctx} (hv : c.Valid) {n : Nat} (hn : 0 < n) {mem : Nat → Mem} {now : Int} {op : Op}
    {shs : Shards} (h : AllInv c n shs) {r : CRes} (hr : exec c n mem now op shs = .val r) (hnw : NoWrap n r.shs) :
    total n r.shs = total n shs + counted c n shs op r.status ∧ (SizedCall op r → AllSized n shs → AllSized n r.shs) := by
  cases op with
  | load k o =>
    refine onKey_counters hn hr hnw ?_
    intro q hq ho hst hev
    obtain ⟨h1, h2⟩ := loadOp_counters hv (h _ (shardIdx_lt c hn k)) hq
    exact ⟨by simpa [counted] using h1, fun hp => h2 (hev.trans hp)⟩
  | store k v o =>
    refine onKey_counters hn hr hnw ?_
    intro q hq ho hst hev
    obtain ⟨h1, h2⟩ := storeOp_counters hv (h _ (shardIdx_lt c hn k)) hq ho
    refine ⟨?_, fun _ => h2⟩
    rw [h1, hst]
    rfl
  | delete k cb =>
    refine onKey_counters hn hr hnw ?_
    intro q hq ho hst hev
    obtain ⟨h1, h2⟩ := deleteOp_counters hv (h _ (shardIdx_lt c hn k)) hq
    refine ⟨?_, fun _ => h2 ho⟩
    rw [h1, hst]
    rfl
  | iter one cb => exact iterShards_counters hv (scope_nodup n one) (scope_lt n one) h hr hnw
  | sweep one =>
    unfold exec at hr
    obtain ⟨⟨q, sw, kp⟩, hq, hr⟩ := out_bind_val hr
    simp only [Out.val.injEq] at hr
    subst hr
    exact sweepShards_counters hv (scope_lt n one) h hq hnw
  | clear one =>
    obtain ⟨h1, h2⟩ := clearShards_counters (scope_lt n one) hr
    exact ⟨h1, fun _ => h2⟩

/-- All stored entries, once each. -/
def Stored (c : Ctx) (n : Nat) (shs : Shards) (L : List Ent) : Prop :=
  L.Nodup ∧ ∀ e, e ∈ L ↔ view c n shs e.key = some e

theorem stored_list {c : Ctx} (hv : c.Valid) {n : Nat} (hn : 0 < n) {shs : Shards} (h : Reach c n shs) (hnw : NoWrap n shs) :
    Stored c n shs ((List.range n).flatMap fun i => (shs i).map.cont.toList) := by
  have hpl := h.placed hv hn hnw
  have hai := h.allInv hv hn
  have hin : ∀ i, i < n → ∀ e, e ∈ (shs i).map.cont → shView (shs i) e.key = some e := fun i hi e he =>
    (shView_rep (hai i hi) (hnw i hi) e.key e).2 ⟨he, rfl⟩
  constructor
  · rw [List.nodup_flatMap]
    constructor
    · intro i hi
      have hi := List.mem_range.1 hi
      rw [← Multiset.coe_nodup, Multiset.coe_toList]
      exact Multiset.Nodup.of_map _ ((hai i hi).nodup (hnw i hi))
    · refine List.Nodup.pairwise_of_forall_ne List.nodup_range ?_
      intro i hi j hj hij
      have hi := List.mem_range.1 hi
      have hj := List.mem_range.1 hj
      intro e hki hkj
      exact hij ((hpl i hi _ e (hin i hi e (Multiset.mem_toList.1 hki))).symm.trans
        (hpl j hj _ e (hin j hj e (Multiset.mem_toList.1 hkj))))
  · intro e
    simp only [List.mem_flatMap, List.mem_range, Multiset.mem_toList]
    constructor
    · rintro ⟨i, hi, he⟩
      have := hin i hi e he
      unfold view
      rw [hpl i hi _ e this]; exact this
    · intro he
      have hi := shardIdx_lt c hn e.key
      exact ⟨_, hi, ((shView_rep (hai _ hi) (hnw _ hi) e.key e).1 he).1⟩

theorem sized_calls {c : Ctx} (hv : c.Valid) {n : Nat} (hn : 0 < n) {l : List Call} {shs shs' : Shards} {rs : List CRes}
    (h : Reach c n shs) (hok : ∀ x ∈ l, OpOk x.mem x.now x.op) (hr : runCalls c n l shs = .val (shs', rs))
    (hnw : NoWrap n shs') (hs : ∀ p ∈ l.zip rs, SizedCall p.1.op p.2) (ha : AllSized n shs) : AllSized n shs' := by
  induction l generalizing shs shs' rs with
  | nil =>
    simp only [runCalls, Out.val.injEq, Prod.mk.injEq] at hr
    rw [← hr.1]; exact ha
  | cons x l ih =>
    obtain ⟨r, rs', h1, h2, rfl⟩ := runCalls_cons hr
    have hre : Reach c n r.shs := .call h (hok x (by simp)) h1
    have hnw1 := runCalls_nowrap hv hn hre (fun y hy => hok y (by simp [hy])) h2 hnw
    refine ih hre (fun y hy => hok y (by simp [hy])) h2 hnw (fun p hp => hs p (by simp [hp])) ?_
    exact (exec_counters hv hn (h.allInv hv hn) h1 hnw1).2 (hs (x, r) (by simp)) ha

/-- **C13, size** (`_partial`: only for histories in which loads, iterations and sweeps removed or updated
nothing; without that the counter drifts, `size_drifts`).  The entries-only size of the cache is the sum of
the memory sizes of the stored entries. -/
theorem size_exact_partial {c : Ctx} (hv : c.Valid) {n : Nat} (hn : 0 < n) {l : List Call} {shs : Shards} {rs : List CRes}
    (hok : ∀ x ∈ l, OpOk x.mem x.now x.op) (hr : runCalls c n l (newCache c) = .val (shs, rs))
    (hnw : NoWrap n shs) (hs : ∀ p ∈ l.zip rs, SizedCall p.1.op p.2) :
    ∃ L, Stored c n shs L ∧ entSize n shs = (L.map Ent.size).sum % 2 ^ 64 := by
  have ha : AllSized n (newCache c) := by
    intro i _
    unfold SizeOk newCache shardInit
    simp only []
    rw [cont_init c 64]
    simp [mapInit]
  have := sized_calls hv hn .new hok hr hnw hs ha
  refine ⟨_, stored_list hv hn (runCalls_reach .new hok hr) hnw, ?_⟩
  have key : ∀ m, m ≤ n → ((List.range m).map fun i => sizeOp true (shs i)).sum % 2 ^ 64 =
      (((List.range m).flatMap fun i => (shs i).map.cont.toList).map Ent.size).sum % 2 ^ 64 := by
    intro m hm
    induction m with
    | zero => rfl
    | succ m ih =>
      rw [List.range_succ, List.map_append, List.flatMap_append, List.sum_append, List.map_append, List.sum_append]
      have h1 := ih (by omega)
      have h2 : (((shs m).map.cont.toList).map Ent.size).sum = ((shs m).map.cont.map Ent.size).sum := by
        conv_rhs => rw [← Multiset.coe_toList (shs m).map.cont]
        rw [Multiset.map_coe, Multiset.sum_coe]
      have h3 := this m (by omega)
      unfold SizeOk at h3
      generalize ((List.range m).map fun i => sizeOp true (shs i)).sum = A at h1 ⊢
      simp only [List.map_cons, List.map_nil, List.sum_cons, List.sum_nil, List.flatMap_cons, List.flatMap_nil, List.append_nil, h2]
      simp only [sizeOp, if_true, add64, Nat.zero_add, Nat.add_zero, h3]
      omega
  exact key n (le_refl _)

/-- **C13, total** (`_partial`: what the counter really counts; it should grow exactly with the insertions
that are announced, see `total_counts_vetoed_delete`).  Every call leaves the total as it is, except: a store
that answers inserted or notfound for a key under which nothing was stored, and a delete vetoed by its
callback, add one. -/
theorem total_accounting_partial {c : Ctx} (hv : c.Valid) {n : Nat} (hn : 0 < n) {mem : Nat → Mem} {now : Int} {op : Op}
    {shs : Shards} (h : Reach c n shs) {r : CRes} (hr : exec c n mem now op shs = .val r) (hnw : NoWrap n r.shs) :
    total n r.shs = total n shs + counted c n shs op r.status :=
  (exec_counters hv hn (h.allInv hv hn) hr hnw).1

namespace Example

/-- A history in which an entry expires and is looked up afterwards. -/
def drift : List Call := [⟨.store [1] [10] (sOpts 5), okMem, 100⟩, ⟨.load [1] ⟨false, none⟩, okMem, 106⟩]

theorem drift_ok : ∀ x ∈ drift, OpOk x.mem x.now x.op := by
  intro x hx
  unfold drift at hx
  simp only [List.mem_cons, List.not_mem_nil, or_false] at hx
  rcases hx with rfl | rfl
  · exact ⟨⟨105, by decide⟩, fun _ => rfl⟩
  · trivial

/-- Two stores of one key and a vetoed delete. -/
def vetoed : List Call := [⟨.store [1] [10] (sOpts 0), okMem, 100⟩, ⟨.store [1] [11] (sOpts 0), okMem, 101⟩,
  ⟨.delete [1] (some fun _ => false), okMem, 102⟩]

theorem vetoed_ok : ∀ x ∈ vetoed, OpOk x.mem x.now x.op := by
  intro x hx
  unfold vetoed at hx
  simp only [List.mem_cons, List.not_mem_nil, or_false] at hx
  rcases hx with rfl | rfl | rfl
  · exact ⟨⟨0, by decide⟩, fun _ => rfl⟩
  · exact ⟨⟨0, by decide⟩, fun _ => rfl⟩
  · trivial

def isInserted : Ev → Bool
  | .inserted _ => true
  | _ => false

end Example

/-- **C13, negation (size).**  After an expired entry is dropped by a load the cache is empty, yet the
entries-only size is not zero. -/
theorem size_drifts : ∃ shs, Reach Example.ctx 1 shs ∧ NoWrap 1 shs ∧ count 1 shs = 0 ∧ entSize 1 shs ≠ 0 := by
  obtain ⟨⟨shs, rs⟩, hr, h⟩ := Out.of_test (o := runCalls Example.ctx 1 Example.drift (newCache Example.ctx))
    (p := fun x => noWrapB 1 x.1 = true ∧ count 1 x.1 = 0 ∧ entSize 1 x.1 ≠ 0) (by decide +kernel)
  exact ⟨shs, runCalls_reach .new Example.drift_ok hr, noWrapB_iff.1 h.1, h.2⟩

/-- **C13, negation (total).**  One insertion is announced, the total is two. -/
theorem total_counts_vetoed_delete : ∃ shs rs, runCalls Example.ctx 1 Example.vetoed (newCache Example.ctx) = .val (shs, rs) ∧
    Reach Example.ctx 1 shs ∧ NoWrap 1 shs ∧ (rs.flatMap CRes.evs).countP Example.isInserted = 1 ∧ total 1 shs = 2 := by
  obtain ⟨⟨shs, rs⟩, hr, h⟩ := Out.of_test (o := runCalls Example.ctx 1 Example.vetoed (newCache Example.ctx))
    (p := fun x => noWrapB 1 x.1 = true ∧ (x.2.flatMap CRes.evs).countP Example.isInserted = 1 ∧ total 1 x.1 = 2) (by decide +kernel)
  exact ⟨shs, rs, hr, runCalls_reach .new Example.vetoed_ok hr, noWrapB_iff.1 h.1, h.2⟩

/-- A history with two shards that `size_exact_partial` covers: one entry is left and the size is its size. -/
example : ∃ shs rs, runCalls Example.ctx 2 Example.vetoed (newCache Example.ctx) = .val (shs, rs) ∧ NoWrap 2 shs ∧
    (∀ p ∈ Example.vetoed.zip rs, SizedCall p.1.op p.2) ∧ count 2 shs = 1 ∧ 0 < entSize 2 shs := by
  obtain ⟨⟨shs, rs⟩, hr, h⟩ := Out.of_test (o := runCalls Example.ctx 2 Example.vetoed (newCache Example.ctx))
    (p := fun x => noWrapB 2 x.1 = true ∧ count 2 x.1 = 1 ∧ 0 < entSize 2 x.1) (by decide +kernel)
  refine ⟨shs, rs, hr, noWrapB_iff.1 h.1, ?_, h.2⟩
  intro p hp
  have := (List.of_mem_zip hp).1
  unfold Example.vetoed at this
  simp only [List.mem_cons, List.not_mem_nil, or_false] at this
  rcases this with h | h | h <;> rw [h] <;> trivial

end Verif.Cache
