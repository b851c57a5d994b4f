import Verif.Shard.Scan

/-!
`iterop`, `sweepop`, `entryiter` and `clearop` on the abstract shard.
-/

namespace Verif.Shard

open Verif.Map Function

/-- Remove some keys. -/
def removed (f : Bytes → Option Ent) (l : List Ent) : Bytes → Option Ent :=
  fun k => if k ∈ l.map Ent.key then none else f k

theorem rep_removed {s s' : Multiset Ent} {f : Bytes → Option Ent} {l : List Ent} (hr : Rep s f)
    (hs : s' + (l : Multiset Ent) = s) (hnd : (s.map Ent.key).Nodup) :
    Rep s' (removed f l) ∧ (l.map Ent.key).Nodup ∧ ∀ e ∈ l, f e.key = some e := by
  have hmem : ∀ e ∈ l, e ∈ s := fun e he => by rw [← hs]; exact Multiset.mem_add.2 (Or.inr (by simpa using he))
  have hnd0 := hnd
  rw [← hs, Multiset.map_add, Multiset.nodup_add] at hnd
  refine ⟨?_, by simpa using hnd.2.1, fun e he => (hr _ _).2 ⟨hmem e he, rfl⟩⟩
  intro k e
  unfold removed
  split
  · rename_i hk
    constructor
    · simp
    · rintro ⟨he, rfl⟩
      exfalso
      exact Multiset.disjoint_left.1 hnd.2.2 (Multiset.mem_map_of_mem Ent.key he) (by simpa using hk)
  · rename_i hk
    rw [hr k e, ← hs, Multiset.mem_add]
    constructor
    · rintro ⟨he | he, h2⟩
      · exact ⟨he, h2⟩
      · exact absurd (List.mem_map.2 ⟨e, by simpa using he, h2⟩) hk
    · rintro ⟨he, h2⟩
      exact ⟨Or.inl he, h2⟩

/-- A scan on the abstract shard. -/
structure PScan (now : Int) (act : List Ent → Ent → Act) (p : PS) (f' : Bytes → Option Ent) (evs : List Ev)
    (seen : List Ent) (stopped : Bool) : Prop where
  kinds : ∀ ev ∈ evs, (∃ e, ev = .expired e ∧ e.alive now = false ∧ p.f e.key = some e) ∨
    (∃ e, ev = .deleted e ∧ e.alive now = true ∧ p.f e.key = some e)
  once : ((evs.flatMap Ev.gone).map Ent.key).Nodup
  after : f' = removed p.f (evs.flatMap Ev.gone)
  live : ∀ e ∈ seen, e.alive now = true ∧ p.f e.key = some e
  dels : evs.filterMap Ev.deletedEnt = dels act [] seen
  stop : stopped = stoppedBy act [] seen
  all : stopped = false → ∀ k e, p.f k = some e →
    (e.alive now = true → e ∈ seen) ∧ (e.alive now = false → Ev.expired e ∈ evs)

theorem scan_abs {c : Ctx} {now : Int} {act : List Ent → Ent → Act} {s : Sh} {p : PS} {st' : Scan}
    (h : Inv c s.map) (ho : s.map.ovf = false) (hp : SRep s p)
    {evs : List Ev} {seen : List Ent} (hst : Step now act ⟨s.map, [], [], false, 0⟩ st' evs seen)
    (hstop : st'.stopped = stoppedBy act [] seen)
    (hall : st'.stopped = false → ∀ e ∈ st'.map.cont, e ∈ st'.seen) :
    Rep st'.map.cont (removed p.f (evs.flatMap Ev.gone)) ∧ st'.evs = evs ∧ st'.seen = seen ∧
    PScan now act p (removed p.f (evs.flatMap Ev.gone)) evs seen st'.stopped := by
  obtain ⟨hrep, hnd, hl⟩ := rep_removed hp.1 hst.cont (h.nodup ho)
  have hse : st'.seen = seen := by rw [hst.seen_eq]; simp
  have hev : st'.evs = evs := by rw [hst.evs_eq]; simp
  refine ⟨hrep, hev, hse, ?_, hnd, rfl, ?_, hst.dels, hstop, ?_⟩
  · intro ev hev
    rcases hst.kinds ev hev with ⟨e, rfl, ha⟩ | ⟨e, rfl, ha⟩
    · left
      exact ⟨e, rfl, ha, hl e (List.mem_flatMap.2 ⟨_, hev, by simp [Ev.gone]⟩)⟩
    · right
      exact ⟨e, rfl, ha, hl e (List.mem_flatMap.2 ⟨_, hev, by simp [Ev.gone]⟩)⟩
  · intro e he
    obtain ⟨h1, h2⟩ := hst.live e he
    exact ⟨h1, (hp.1 _ _).2 ⟨h2, rfl⟩⟩
  · intro hsf k e hke
    have hin := ((hp.1 _ _).1 hke).1
    rw [← hst.cont, Multiset.mem_add] at hin
    constructor
    · intro ha
      rcases hin with hin | hin
      · rw [← hse]; exact hall hsf e hin
      · obtain ⟨ev, h1, h2⟩ := List.mem_flatMap.1 (by simpa using hin)
        rcases hst.kinds ev h1 with ⟨e', rfl, ha'⟩ | ⟨e', rfl, ha'⟩
        · have : e = e' := by simpa [Ev.gone] using h2
          subst this; rw [ha] at ha'; simp at ha'
        · have : e = e' := by simpa [Ev.gone] using h2
          subst this
          have hm : e ∈ evs.filterMap Ev.deletedEnt := List.mem_filterMap.2 ⟨_, h1, rfl⟩
          rw [hst.dels] at hm
          -- deleted entries were shown
          have key : ∀ (l pre : List Ent) (x : Ent), x ∈ Verif.Shard.dels act pre l → x ∈ l := by
            intro l
            induction l with
            | nil => intro pre x hx; simp [Verif.Shard.dels] at hx
            | cons a l ih =>
              intro pre x hx
              unfold Verif.Shard.dels at hx
              rcases List.mem_append.1 hx with hx | hx
              · split at hx
                · simp at hx; simp [hx]
                · simp at hx
              · exact List.mem_cons_of_mem _ (ih _ _ hx)
          exact key _ _ _ hm
    · intro ha
      rcases hin with hin | hin
      · have h1 := hall hsf e hin
        rw [hse] at h1
        have := (hst.live e h1).1
        rw [ha] at this; simp at this
      · obtain ⟨ev, h1, h2⟩ := List.mem_flatMap.1 (by simpa using hin)
        rcases hst.kinds ev h1 with ⟨e', rfl, ha'⟩ | ⟨e', rfl, ha'⟩
        · have : e = e' := by simpa [Ev.gone] using h2
          subst this; exact h1
        · have : e = e' := by simpa [Ev.gone] using h2
          subst this; rw [ha] at ha'; simp at ha'

theorem scan_start {c : Ctx} (hv : c.Valid) (now : Int) (act : List Ent → Ent → Act) {s : Sh} (h : Inv c s.map) :
    ∃ st', scanLoop now act (scanFuel s.map) 0 ⟨s.map, [], [], false, 0⟩ = .val st' ∧ Inv c st'.map ∧
      st'.map.ovf = s.map.ovf ∧ st'.map.total = s.map.total ∧ st'.map.nbuckets = s.map.nbuckets ∧
      (s.map.ovf = false → ∀ p, SRep s p → ∃ f', Rep st'.map.cont f' ∧
        PScan now act p f' st'.evs st'.seen st'.stopped) := by
  obtain ⟨st', h1, h2, h3, h4, h5, h6, h7, h8⟩ :=
    scanLoop_spec hv now act (scanFuel s.map) 0 ⟨s.map, [], [], false, 0⟩ h rfl (by unfold scanFuel; simp)
      (fun _ => False) (by intro j hj; omega)
  refine ⟨st', h1, h2, h3, h4, h5, ?_⟩
  intro ho p hp
  obtain ⟨evs, seen, hst, hstop⟩ := h8 ho
  have hall : st'.stopped = false → ∀ e ∈ st'.map.cont, e ∈ st'.seen := by
    intro hsf e he
    obtain ⟨j, hj, hd, rfl⟩ := mem_cont.1 he
    have h6' := h6 hsf
    simp only [] at h5 h6'
    rcases h7 j (by omega) hj hd with hf | hf
    · exact absurd hf id
    · exact hf
  obtain ⟨r1, r2, r3, r4⟩ := scan_abs h ho hp hst hstop hall
  exact ⟨_, r1, by rw [r2, r3]; exact r4⟩

theorem iterOp_spec {c : Ctx} (hv : c.Valid) (mem : Mem) (now : Int) (cb : Option (List Ent → Ent → Act)) {s : Sh}
    (h : Inv c s.map) :
    ∃ r, iterOp c mem now cb s = .val r ∧ Inv c r.sh.map ∧
      (r.sh.map.ovf = false → s.map.ovf = false ∧ ∀ p, SRep s p → ∃ (q : PS) (seen : List Ent) (stopped : Bool),
        SRep r.sh q ∧ q.cas = p.cas ∧ PScan now (cb.getD fun _ _ => .cont) p q.f r.evs seen stopped ∧
        r.status = (if stopped then .canceled else .finished) ∧ r.seen = if cb.isSome then seen else []) := by
  obtain ⟨st', h1, h2, h3, h4, h5, h6⟩ := scan_start hv now (cb.getD fun _ _ => .cont) h
  obtain ⟨m', hm, him, hcnt, _, _, hov⟩ := tryShrink_spec hv h2 mem.tbl
  unfold iterOp
  rw [h1]
  simp only [Out.bind, hm, ofLoop]
  refine ⟨_, rfl, him, ?_⟩
  intro ho
  obtain ⟨ho', hc⟩ := hov ho
  rw [h3] at ho'
  refine ⟨ho', ?_⟩
  intro p hp
  obtain ⟨f', hr, hps⟩ := h6 ho' p hp
  refine ⟨⟨f', p.cas⟩, st'.seen, st'.stopped, ⟨?_, hp.2⟩, rfl, hps, rfl, rfl⟩
  rw [hc]; exact hr

theorem sweepOp_spec {c : Ctx} (hv : c.Valid) (mem : Mem) (now : Int) {s : Sh} (h : Inv c s.map) :
    ∃ r swept kept, sweepOp c mem now s = .val (r, swept, kept) ∧ Inv c r.sh.map ∧
      (r.sh.map.ovf = false → s.map.ovf = false ∧ swept = r.evs.length ∧ ∀ p, SRep s p → ∃ (q : PS) (seen : List Ent),
        SRep r.sh q ∧ q.cas = p.cas ∧ PScan now (fun _ _ => .cont) p q.f r.evs seen false ∧ kept = seen.length ∧
        ((s.map.buckets 0).dib ≤ 1 → seen.Nodup)) := by
  obtain ⟨st', h1, h2, h3, h4, h5, h6⟩ := scan_start hv now (fun _ _ => .cont) h
  obtain ⟨m', hm, him, hcnt, _, _, hov⟩ := tryShrink_spec hv h2 mem.tbl
  unfold sweepOp
  rw [h1]
  simp only [Out.bind, hm, ofLoop]
  refine ⟨_, _, _, rfl, him, ?_⟩
  intro ho
  obtain ⟨ho', hc⟩ := hov ho
  rw [h3] at ho'
  refine ⟨ho', rfl, ?_⟩
  intro p hp
  obtain ⟨f', hr, hps⟩ := h6 ho' p hp
  have hns : st'.stopped = false := by
    rw [hps.stop]
    have : ∀ (l pre : List Ent), stoppedBy (fun _ _ => .cont) pre l = false := by
      intro l
      induction l with
      | nil => intro pre; rfl
      | cons a l ih => intro pre; simp [stoppedBy, Act.stops, ih]
    exact this _ _
  rw [hns] at hps
  refine ⟨⟨f', p.cas⟩, st'.seen, ⟨?_, hp.2⟩, rfl, hps, rfl, ?_⟩
  · rw [hc]; exact hr
  · intro h0
    exact scanLoop_once hv now _ _ _ _ _ h ho' (Or.inl h0) (by simp) (by simp) h1

/-! ### Clear -/

theorem clearEvs_gone (b : Nat → Bucket) (now : Int) (n : Nat) :
    (((List.range n).filterMap fun i =>
      if (b i).dib = 0 then none else some (if (b i).ent.alive now then Ev.cleared (b i).ent else .expired (b i).ent)).flatMap
        Ev.gone : Multiset Ent) = cont b n := by
  induction n with
  | zero => simp [cont]
  | succ n ih =>
    have hc : cont b (n + 1) = cont b n + bc (b n) := by unfold cont; rw [Finset.sum_range_succ]
    rw [List.range_succ, List.filterMap_append, List.flatMap_append, ← Multiset.coe_add, ih, hc]
    congr 1
    by_cases hd : (b n).dib = 0
    · simp [hd, bc]
    · by_cases ha : (b n).ent.alive now = true
      · simp [hd, bc, ha, Ev.gone]
      · simp [hd, bc, ha, Ev.gone]

/-- The notifications of a clear. -/
structure PClear (now : Int) (p : PS) (evs : List Ev) : Prop where
  kinds : ∀ ev ∈ evs, (∃ e, ev = .expired e ∧ e.alive now = false ∧ p.f e.key = some e) ∨
    (∃ e, ev = .cleared e ∧ e.alive now = true ∧ p.f e.key = some e)
  once : ((evs.flatMap Ev.gone).map Ent.key).Nodup
  all : ∀ k e, p.f k = some e → e ∈ evs.flatMap Ev.gone

theorem clearOp_spec {c : Ctx} (hv : c.Valid) (mem : Mem) (now : Int) {s : Sh} (h : Inv c s.map) (hmem : mem.tbl = true) :
    ∃ r, clearOp c mem now s = .val r ∧ Inv c r.sh.map ∧ r.status = .finished ∧ r.seen = [] ∧
      (r.sh.map.ovf = false → s.map.ovf = false ∧ ∀ p, SRep s p →
        SRep r.sh ⟨fun _ => none, p.cas⟩ ∧ PClear now p r.evs) := by
  unfold clearOp
  rw [if_pos hmem]
  refine ⟨_, rfl, ?_, rfl, rfl, ?_⟩
  · have hi := inv_init hv
    constructor
    · exact hi.pow
    · exact hi.cap
    · exact hi.ge
    · exact hi.grow
    · exact hi.shrink
    · exact hi.load
    · exact hi.card
    · intro _; exact hi.wf rfl
    · intro _; exact hi.cnt rfl
    · intro _
      rw [show ({ mapInit c 64 with total := s.map.total, ovf := s.map.ovf } : Tbl).cont = 0 from cont_init c 64]
      simp
  · intro ho
    refine ⟨ho, ?_⟩
    have ho : s.map.ovf = false := ho
    intro p hp
    refine ⟨⟨?_, hp.2⟩, ?_⟩
    · have : ({ mapInit c 64 with total := s.map.total, ovf := s.map.ovf } : Tbl).cont = 0 := cont_init c 64
      simp only []
      rw [this]
      intro k e
      simp
    · have hg := clearEvs_gone s.map.buckets now s.map.nbuckets
      have hg' : ((clearEvs s.map now).flatMap Ev.gone : Multiset Ent) = s.map.cont := hg
      have hm : ∀ e, e ∈ (clearEvs s.map now).flatMap Ev.gone ↔ e ∈ s.map.cont := by
        intro e; rw [← hg']; simp
      constructor
      · intro ev hev
        have hev' := hev
        unfold clearEvs at hev
        obtain ⟨i, hi, he⟩ := List.mem_filterMap.1 hev
        simp only [] at he
        split at he
        · simp at he
        · simp only [Option.some.injEq] at he
          split at he
          · rename_i ha
            right
            refine ⟨_, he.symm, ha, ?_⟩
            exact (hp.1 _ _).2 ⟨(hm _).1 (List.mem_flatMap.2 ⟨ev, hev', by rw [← he]; simp [Ev.gone]⟩), rfl⟩
          · rename_i ha
            left
            refine ⟨_, he.symm, by simpa using ha, ?_⟩
            exact (hp.1 _ _).2 ⟨(hm _).1 (List.mem_flatMap.2 ⟨ev, hev', by rw [← he]; simp [Ev.gone]⟩), rfl⟩
      · have := h.nodup ho
        rw [← hg'] at this
        simpa using this
      · intro k e hke
        exact (hm e).2 ((hp.1 _ _).1 hke).1

end Verif.Shard
