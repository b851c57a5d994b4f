import Verif.Cache.Cond
import Mathlib.Data.List.Dedup

/-!
C11 (iteration) and C12 (sweep).
-/

namespace Verif.Cache

open Verif.Map Verif.Shard Function

/-- A scan over some shards, on the contents of the cache. -/
structure CScan (c : Ctx) (n : Nat) (now : Int) (act : List Ent → Ent → Act) (is : List Nat) (acc : List Ent)
    (shs shs' : Shards) (evs : List Ev) (new : List Ent) (stopped : Bool) : Prop where
  kinds : ∀ ev ∈ evs, ((∃ e, ev = .expired e ∧ e.alive now = false ∧ view c n shs e.key = some e) ∨
    (∃ e, ev = .deleted e ∧ e.alive now = true ∧ view c n shs e.key = some e)) ∧ shardIdx c n (Ev.key ev) ∈ is
  once : ((evs.flatMap Ev.gone).map Ent.key).Nodup
  after : view c n shs' = removed (view c n shs) (evs.flatMap Ev.gone)
  live : ∀ e ∈ new, e.alive now = true ∧ view c n shs e.key = some e ∧ shardIdx c n e.key ∈ is
  dels : evs.filterMap Ev.deletedEnt = dels act acc new
  stop : stopped = stoppedBy act acc new
  all : stopped = false → ∀ k e, shardIdx c n k ∈ is → view c n shs k = some e →
    (e.alive now = true → e ∈ new) ∧ (e.alive now = false → Ev.expired e ∈ evs)

theorem removed_append (f : Bytes → Option Ent) (a b : List Ent) : removed (removed f a) b = removed f (a ++ b) := by
  funext k
  unfold removed
  simp only [List.map_append, List.mem_append]
  by_cases h1 : k ∈ a.map Ent.key <;> by_cases h2 : k ∈ b.map Ent.key <;> simp only [h1, h2, if_true, if_false, true_or, or_true, or_false]

/-- What disappears by scan events has their keys. -/
theorem gone_keys {evs : List Ev} {now : Int} {f : Bytes → Option Ent} (hk : ∀ ev ∈ evs,
    (∃ e, ev = .expired e ∧ e.alive now = false ∧ f e.key = some e) ∨
    (∃ e, ev = .deleted e ∧ e.alive now = true ∧ f e.key = some e)) {k : Bytes} :
    k ∈ (evs.flatMap Ev.gone).map Ent.key ↔ ∃ ev ∈ evs, Ev.key ev = k := by
  simp only [List.mem_map, List.mem_flatMap]
  constructor
  · rintro ⟨e, ⟨ev, h1, h2⟩, rfl⟩
    refine ⟨ev, h1, ?_⟩
    rcases hk ev h1 with ⟨e', rfl, _⟩ | ⟨e', rfl, _⟩ <;>
    · simp only [Ev.gone, List.mem_singleton] at h2
      rw [h2]; rfl
  · rintro ⟨ev, h1, rfl⟩
    rcases hk ev h1 with ⟨e', rfl, _⟩ | ⟨e', rfl, _⟩ <;>
    exact ⟨e', ⟨_, h1, by simp [Ev.gone]⟩, rfl⟩

/-- One shard. -/
theorem cscan_one {c : Ctx} {n : Nat} {now : Int} {act act' : List Ent → Ent → Act} {acc : List Ent} {shs : Shards} {sh : Sh}
    {i : Nat} (hi : i < n) (hpl : Placed c n shs) {cas : Nat} {evs : List Ev} {seen : List Ent} {stopped : Bool}
    (ha : act' = fun l e => act (acc ++ l) e)
    (h : PScan now act' ⟨shView (shs i), cas⟩ (shView sh) evs seen stopped) :
    CScan c n now act [i] acc shs (update shs i sh) evs seen stopped := by
  have hv : ∀ k e, shView (shs i) k = some e → view c n shs k = some e ∧ shardIdx c n k = i := by
    intro k e hk
    have := hpl i hi k e hk
    unfold view
    rw [this]; exact ⟨hk, rfl⟩
  have hkk : ∀ ev ∈ evs, shardIdx c n (Ev.key ev) = i := by
    intro ev hev
    rcases h.kinds ev hev with ⟨e, rfl, _, h2⟩ | ⟨e, rfl, _, h2⟩ <;> exact (hv _ _ h2).2
  refine ⟨?_, h.once, ?_, ?_, ?_, ?_, ?_⟩
  · intro ev hev
    refine ⟨?_, by simp [hkk ev hev]⟩
    rcases h.kinds ev hev with ⟨e, rfl, h1, h2⟩ | ⟨e, rfl, h1, h2⟩
    · left; exact ⟨e, rfl, h1, (hv _ _ h2).1⟩
    · right; exact ⟨e, rfl, h1, (hv _ _ h2).1⟩
  · funext k
    by_cases hk : shardIdx c n k = i
    · have : view c n (update shs i sh) k = shView sh k := by unfold view; rw [hk, update_self]
      rw [this, h.after]
      unfold removed view
      rw [hk]
    · have : view c n (update shs i sh) k = view c n shs k := by unfold view; rw [update_of_ne hk]
      rw [this]
      unfold removed
      rw [if_neg]
      rw [gone_keys h.kinds]
      rintro ⟨ev, hev, rfl⟩
      exact hk (hkk ev hev)
  · intro e he
    obtain ⟨h1, h2⟩ := h.live e he
    exact ⟨h1, (hv _ _ h2).1, by simp [(hv _ _ h2).2]⟩
  · rw [h.dels, ha]
    have := dels_shift act acc [] seen
    simpa using this
  · rw [h.stop, ha]
    have := stoppedBy_shift act acc [] seen
    simpa using this
  · intro hs k e hk hke
    have hk' : shardIdx c n k = i := by simpa using hk
    unfold view at hke
    rw [hk'] at hke
    exact h.all hs k e hke

/-- Two scans one after the other. -/
theorem CScan.trans {c : Ctx} {n : Nat} {now : Int} {act : List Ent → Ent → Act} {acc : List Ent} {a b d : Shards}
    {is js : List Nat} (hd : ∀ i ∈ is, i ∉ js) {e1 e2 : List Ev} {s1 s2 : List Ent} {st : Bool}
    (h1 : CScan c n now act is acc a b e1 s1 false) (h2 : CScan c n now act js (acc ++ s1) b d e2 s2 st) :
    CScan c n now act (is ++ js) acc a d (e1 ++ e2) (s1 ++ s2) st := by
  have hk1 := fun ev hev => (h1.kinds ev hev).1
  have hk2 := fun ev hev => (h2.kinds ev hev).1
  have hsame : ∀ k, shardIdx c n k ∈ js → view c n b k = view c n a k := by
    intro k hk
    rw [h1.after]
    unfold removed
    rw [if_neg]
    rw [gone_keys hk1]
    rintro ⟨ev, hev, rfl⟩
    exact hd _ (h1.kinds ev hev).2 hk
  refine ⟨?_, ?_, ?_, ?_, ?_, ?_, ?_⟩
  · intro ev hev
    rcases List.mem_append.1 hev with h | h
    · exact ⟨(h1.kinds ev h).1, List.mem_append.2 (Or.inl (h1.kinds ev h).2)⟩
    · obtain ⟨h3, h4⟩ := h2.kinds ev h
      refine ⟨?_, List.mem_append.2 (Or.inr h4)⟩
      rcases h3 with ⟨e, rfl, h5, h6⟩ | ⟨e, rfl, h5, h6⟩
      · left; exact ⟨e, rfl, h5, (hsame e.key h4).symm.trans h6⟩
      · right; exact ⟨e, rfl, h5, (hsame e.key h4).symm.trans h6⟩
  · rw [List.flatMap_append, List.map_append, List.nodup_append]
    refine ⟨h1.once, h2.once, ?_⟩
    intro k hka k' hkb hkk
    subst hkk
    obtain ⟨ev, hev, rfl⟩ := (gone_keys hk1).1 hka
    obtain ⟨ev', hev', he⟩ := (gone_keys hk2).1 hkb
    have := (h2.kinds ev' hev').2
    rw [he] at this
    exact hd _ (h1.kinds ev hev).2 this
  · rw [h2.after, h1.after, removed_append, List.flatMap_append]
  · intro e he
    rcases List.mem_append.1 he with h | h
    · obtain ⟨p, q, r⟩ := h1.live e h
      exact ⟨p, q, List.mem_append.2 (Or.inl r)⟩
    · obtain ⟨p, q, r⟩ := h2.live e h
      exact ⟨p, by rw [← hsame _ r]; exact q, List.mem_append.2 (Or.inr r)⟩
  · rw [List.filterMap_append, h1.dels, h2.dels, dels_append]
  · rw [stoppedBy_append, ← h1.stop, h2.stop]; simp
  · intro hs k e hk hke
    rcases List.mem_append.1 hk with h | h
    · obtain ⟨p, q⟩ := h1.all rfl k e h hke
      exact ⟨fun ha => List.mem_append.2 (Or.inl (p ha)), fun ha => List.mem_append.2 (Or.inl (q ha))⟩
    · obtain ⟨p, q⟩ := h2.all hs k e h (by rw [hsame _ h]; exact hke)
      exact ⟨fun ha => List.mem_append.2 (Or.inr (p ha)), fun ha => List.mem_append.2 (Or.inr (q ha))⟩

theorem CScan.nil {c : Ctx} {n : Nat} {now : Int} {act : List Ent → Ent → Act} {acc : List Ent} {a : Shards} :
    CScan c n now act [] acc a a [] [] false :=
  ⟨by simp, by simp, by funext k; simp [removed], by simp, by simp [Verif.Shard.dels], by simp [stoppedBy], by simp⟩

theorem CScan.placed {c : Ctx} {n : Nat} {shs : Shards} {i : Nat} {sh : Sh} (hi : i < n) (hpl : Placed c n shs) {l : List Ent}
    (h : shView sh = removed (shView (shs i)) l) : Placed c n (update shs i sh) := by
  intro j hj k e hke
  by_cases hji : j = i
  · subst hji
    rw [update_self, h] at hke
    unfold removed at hke
    split at hke
    · simp at hke
    · exact hpl j hi k e hke
  · rw [update_of_ne hji] at hke
    exact hpl j hj k e hke

/-- Nothing moves backwards around the end of the array of a shard during a scan: no probe cluster wraps
around the end (the first bucket holds no displaced entry), or nothing is deleted. -/
def Calm (now : Int) (s : Sh) (act : List Ent → Ent → Act) : Prop :=
  (s.map.buckets 0).dib ≤ 1 ∨
    (∀ j, j < s.map.nbuckets → (s.map.buckets j).dib ≠ 0 → (s.map.buckets j).ent.alive now = true) ∧
      ∀ pre e, (act pre e).del = false

theorem calm_scan {c : Ctx} (hv : c.Valid) {now : Int} {s : Sh} {act : List Ent → Ent → Act} (h : Inv c s.map)
    (ho : s.map.ovf = false) (hc : Calm now s act) {fuel : Nat} {st' : Scan}
    (hr : scanLoop now act fuel 0 ⟨s.map, [], [], false, 0⟩ = .val st') : st'.seen.Nodup := by
  refine scanLoop_once hv now act fuel 0 _ st' h ho ?_ (by simp) (by simp) hr
  rcases hc with h0 | ⟨h1, h2⟩
  · exact Or.inl h0
  · right
    refine ⟨?_, h2⟩
    intro e he
    obtain ⟨j, hj, hd, rfl⟩ := mem_cont.1 he
    exact h1 j hj hd

theorem iterOp_scan {c : Ctx} (hv : c.Valid) (mem : Mem) (now : Int) (cb : Option (List Ent → Ent → Act)) {s : Sh}
    (h : Inv c s.map) :
    ∃ r seen stopped, iterOp c mem now cb s = .val r ∧ Inv c r.sh.map ∧
      r.status = (if stopped = true then .canceled else .finished) ∧ r.seen = (if cb.isSome then seen else []) ∧
      r.sh.cas = s.cas ∧
      (r.sh.map.ovf = false → s.map.ovf = false ∧
        PScan now (cb.getD fun _ _ => .cont) ⟨shView s, s.cas⟩ (shView r.sh) r.evs seen stopped ∧
        (Calm now s (cb.getD fun _ _ => .cont) → seen.Nodup)) := by
  obtain ⟨st', h1, h2, h3, h4, h5, h6⟩ := scan_start hv now (cb.getD fun _ _ => .cont) h
  obtain ⟨m', hm, him, hcnt, _, _, hov⟩ := tryShrink_spec hv h2 mem.tbl
  unfold iterOp
  rw [h1]
  simp only [Out.bind, hm, ofLoop]
  refine ⟨_, st'.seen, st'.stopped, rfl, him, rfl, rfl, rfl, ?_⟩
  intro ho
  obtain ⟨ho', hc⟩ := hov ho
  rw [h3] at ho'
  obtain ⟨f', hr, hps⟩ := h6 ho' ⟨shView s, s.cas⟩ ⟨shView_rep h ho', rfl⟩
  refine ⟨ho', ?_, fun hcalm => calm_scan hv h ho' hcalm h1⟩
  have : shView ({ map := m', cas := s.cas } : Sh) = f' := rep_shView (s := ({ map := m', cas := s.cas } : Sh)) him ho (by simp only []; rw [hc]; exact hr)
  rw [this]
  exact hps

theorem iterShards_scan {c : Ctx} (hv : c.Valid) {n : Nat} (mem : Nat → Mem) (now : Int) (f : List Ent → Ent → Act)
    (is : List Nat) (hnd : is.Nodup) (his : ∀ i ∈ is, i < n) (acc : List Ent) (shs : Shards) (h : AllInv c n shs) :
    ∃ r new stopped, iterShards c mem now (some f) is acc shs = .val r ∧ AllInv c n r.shs ∧ r.seen = acc ++ new ∧
      r.status = (if stopped = true then .canceled else .finished) ∧
      (NoWrap n r.shs → Placed c n shs → CScan c n now f is acc shs r.shs r.evs new stopped ∧
        ((∀ i ∈ is, Calm now (shs i) f) → new.Nodup)) := by
  induction is generalizing acc shs with
  | nil => exact ⟨_, [], false, rfl, h, by simp, rfl, fun _ _ => ⟨CScan.nil, by simp⟩⟩
  | cons i is ih =>
    have hi := his i (by simp)
    have hni := (List.nodup_cons.1 hnd).1
    obtain ⟨r, seen, stopped, hr, hinv, hst, hse, hcas, hsp⟩ := iterOp_scan hv (mem i) now (some fun l e => f (acc ++ l) e) (h i hi)
    unfold iterShards
    rw [show (Option.map (fun (f : List Ent → Ent → Act) l e => f (acc ++ l) e) (some f)) = some fun l e => f (acc ++ l) e from rfl, hr]
    simp only [Out.bind]
    have hse : r.seen = seen := hse
    have hcalm : Calm now (shs i) f → Calm now (shs i) fun l e => f (acc ++ l) e := by
      rintro (h0 | ⟨h1, h2⟩)
      · exact Or.inl h0
      · exact Or.inr ⟨h1, fun pre e => h2 _ e⟩
    cases stopped with
    | true =>
      simp only [if_true] at hst
      rw [if_pos (by rw [hst]; simp)]
      refine ⟨_, seen, true, rfl, h.put hinv, by rw [hse], by rw [hst]; rfl, ?_⟩
      intro hnw hpl
      obtain ⟨ho, hps, hno⟩ := hsp (hnw.self hi)
      have h1 := cscan_one (act := f) (acc := acc) hi hpl rfl hps
      refine ⟨?_, fun hc => hno (hcalm (hc i (by simp)))⟩
      refine ⟨?_, h1.once, h1.after, ?_, h1.dels, h1.stop, by simp⟩
      · intro ev hev
        exact ⟨(h1.kinds ev hev).1, by rw [List.mem_singleton.1 (h1.kinds ev hev).2]; simp⟩
      · intro e he
        obtain ⟨p, q, r⟩ := h1.live e he
        exact ⟨p, q, by rw [List.mem_singleton.1 r]; simp⟩
    | false =>
      simp only [Bool.false_eq_true, if_false] at hst
      rw [if_neg (by rw [hst]; simp)]
      obtain ⟨q, new, stopped, hq, hA, hqs, hqst, hqsp⟩ := ih (List.nodup_cons.1 hnd).2 (fun j hj => his j (by simp [hj]))
        (acc ++ r.seen) (update shs i r.sh) (h.put hinv)
      rw [hq]
      refine ⟨_, seen ++ new, stopped, rfl, hA, by simp only []; rw [hqs, hse]; simp, hqst, ?_⟩
      intro hnw hpl
      have hnw1 : NoWrap n (update shs i r.sh) := by
        obtain ⟨r', hr', _, hx⟩ := iterShards_eff hv mem now (some f) is (List.nodup_cons.1 hnd).2
          (fun j hj => his j (by simp [hj])) (acc ++ r.seen) (update shs i r.sh) (h.put hinv)
        rw [hq] at hr'
        simp only [Out.val.injEq] at hr'
        subst hr'
        exact (hx hnw).1
      obtain ⟨ho, hps, hno⟩ := hsp (hnw1.self hi)
      have h1 := cscan_one (act := f) (acc := acc) hi hpl rfl hps
      have hpl1 := CScan.placed hi hpl hps.after
      obtain ⟨h2, h3⟩ := hqsp hnw hpl1
      rw [hse] at h2
      refine ⟨CScan.trans (by simpa using hni) h1 h2, ?_⟩
      intro hc
      rw [List.nodup_append]
      refine ⟨hno (hcalm (hc i (by simp))), h3 ?_, ?_⟩
      · intro j hj
        have hne : j ≠ i := fun hx => hni (hx ▸ hj)
        rw [update_of_ne hne]
        exact hc j (by simp [hj])
      · intro a ha b hb hab
        subst hab
        have p1 := (h1.live a ha).2.2
        have p2 := (h2.live a hb).2.2
        rw [List.mem_singleton.1 p1] at p2
        exact hni p2

theorem mem_dels {f : List Ent → Ent → Act} {l pre : List Ent} {e : Ent} :
    e ∈ Verif.Shard.dels f pre l ↔ ∃ a b, l = a ++ e :: b ∧ (f (pre ++ a) e).del = true := by
  induction l generalizing pre with
  | nil => simp [Verif.Shard.dels]
  | cons x l ih =>
    unfold Verif.Shard.dels
    rw [List.mem_append, ih]
    constructor
    · rintro (h | ⟨a, b, rfl, h⟩)
      · split at h
        · rename_i hx
          rw [List.mem_singleton.1 h]
          exact ⟨[], l, rfl, by simpa using hx⟩
        · simp at h
      · exact ⟨x :: a, b, rfl, by simpa using h⟩
    · rintro ⟨a, b, h1, h2⟩
      cases a with
      | nil =>
        simp only [List.nil_append, List.cons.injEq] at h1
        left
        rw [h1.1, if_pos (by simpa using h2)]; simp
      | cons y a =>
        simp only [List.cons_append, List.cons.injEq] at h1
        right
        exact ⟨a, b, h1.2, by rw [h1.1]; simpa using h2⟩

theorem stoppedBy_mem {f : List Ent → Ent → Act} {l pre : List Ent} :
    stoppedBy f pre l = true ↔ ∃ a e b, l = a ++ e :: b ∧ (f (pre ++ a) e).stops = true := by
  induction l generalizing pre with
  | nil => simp [stoppedBy]
  | cons x l ih =>
    unfold stoppedBy
    rw [Bool.or_eq_true, ih]
    constructor
    · rintro (h | ⟨a, e, b, rfl, h⟩)
      · exact ⟨[], x, l, rfl, by simpa using h⟩
      · exact ⟨x :: a, e, b, rfl, by simpa using h⟩
    · rintro ⟨a, e, b, h1, h2⟩
      cases a with
      | nil =>
        simp only [List.nil_append, List.cons.injEq] at h1
        left
        rw [h1.1]; simpa using h2
      | cons y a =>
        simp only [List.cons_append, List.cons.injEq] at h1
        right
        exact ⟨a, e, b, h1.2, by rw [h1.1]; simpa using h2⟩

/-- A scan shows nothing after the callback has answered stop. -/
theorem scanLoop_last {now : Int} {act : List Ent → Ent → Act} {fuel i : Nat} {st st' : Scan}
    (hs : st.stopped = false) (h0 : stoppedBy act [] st.seen = false) (hr : scanLoop now act fuel i st = .val st') :
    stoppedBy act [] st'.seen.dropLast = false ∧ st'.stopped = stoppedBy act [] st'.seen := by
  induction fuel generalizing i st with
  | zero => simp [scanLoop] at hr
  | succ fuel ih =>
    unfold scanLoop at hr
    by_cases hi : i < st.map.nbuckets
    · rw [if_pos hi] at hr
      simp only [] at hr
      split at hr
      · exact ih hs h0 hr
      · split at hr
        · obtain ⟨m, _, hr⟩ := out_bind_val hr
          exact (fun a b => ih a b hr) hs h0
        · have happ : stoppedBy act [] (st.seen ++ [(st.map.buckets i).ent]) =
              (act st.seen (st.map.buckets i).ent).stops := by
            rw [stoppedBy_append, h0]; simp [stoppedBy]
          cases hact : act st.seen (st.map.buckets i).ent with
          | cont =>
            rw [hact] at hr happ
            exact (fun a b => ih a b hr) hs happ
          | stop =>
            rw [hact] at hr happ
            simp only [Out.val.injEq] at hr
            subst hr
            refine ⟨?_, happ.symm⟩
            simpa using h0
          | delete =>
            rw [hact] at hr happ
            obtain ⟨m, _, hr⟩ := out_bind_val hr
            exact (fun a b => ih a b hr) hs happ
          | deleteStop =>
            rw [hact] at hr happ
            obtain ⟨m, _, hr⟩ := out_bind_val hr
            simp only [Out.val.injEq] at hr
            subst hr
            refine ⟨?_, happ.symm⟩
            simpa using h0
    · rw [if_neg hi] at hr
      simp only [Out.val.injEq] at hr
      subst hr
      refine ⟨?_, by rw [h0]; exact hs⟩
      simp only []
      cases hse : st.seen.dropLast with
      | nil => simp [stoppedBy]
      | cons x l =>
        have hne : st.seen ≠ [] := by intro hc; rw [hc] at hse; simp at hse
        have := List.dropLast_append_getLast hne
        rw [← this, stoppedBy_append, Bool.or_eq_false_iff] at h0
        rw [← hse]; exact h0.1

theorem iterShards_last {c : Ctx} {mem : Nat → Mem} {now : Int} {f : List Ent → Ent → Act} {is : List Nat}
    {acc : List Ent} {shs : Shards} {r : CRes} (h0 : stoppedBy f [] acc = false)
    (hr : iterShards c mem now (some f) is acc shs = .val r) : stoppedBy f [] r.seen.dropLast = false ∧
      (r.status ≠ .finished ↔ stoppedBy f [] r.seen = true) := by
  induction is generalizing acc shs r with
  | nil =>
    simp only [iterShards, Out.val.injEq] at hr
    subst hr
    simp only [h0]
    refine ⟨?_, by simp⟩
    rcases List.eq_nil_or_concat acc with rfl | ⟨l, x, rfl⟩
    · simp [stoppedBy]
    · rw [List.concat_eq_append, stoppedBy_append, Bool.or_eq_false_iff] at h0
      simpa using h0.1
  | cons i is ih =>
    unfold iterShards at hr
    obtain ⟨q, hq, hr⟩ := out_bind_val hr
    unfold iterOp at hq
    obtain ⟨st, hst, hq⟩ := out_bind_val hq
    obtain ⟨m, hm, hq⟩ := out_bind_val hq
    simp only [Option.map_some, Option.isSome_some, if_true, Out.val.injEq] at hq
    obtain ⟨h1, h2⟩ := scanLoop_last rfl (by simp [stoppedBy]) hst
    simp only [Option.map_some, Option.getD_some] at h1 h2
    have e1 := stoppedBy_shift f acc [] st.seen.dropLast
    have e2 := stoppedBy_shift f acc [] st.seen
    simp only [List.append_nil] at e1 e2
    rw [e1] at h1
    rw [e2] at h2
    have hall : stoppedBy f [] (acc ++ st.seen) = stoppedBy f acc st.seen := by
      rw [stoppedBy_append, h0]; simp
    have hdl : stoppedBy f [] (acc ++ st.seen).dropLast = false := by
      by_cases hne : st.seen = []
      · rw [hne] at h1 ⊢
        simp only [List.append_nil]
        rcases List.eq_nil_or_concat acc with rfl | ⟨l, x, rfl⟩
        · simp [stoppedBy]
        · rw [List.concat_eq_append, stoppedBy_append, Bool.or_eq_false_iff] at h0
          simpa using h0.1
      · rw [List.dropLast_append_of_ne_nil hne, stoppedBy_append, h0]
        simpa using h1
    subst hq
    cases hss : st.stopped with
    | true =>
      simp only [hss, if_true] at hr
      rw [if_pos (by simp)] at hr
      simp only [Out.val.injEq] at hr
      subst hr
      simp only []
      exact ⟨hdl, by rw [hall, ← h2, hss]; simp⟩
    | false =>
      simp only [hss] at hr
      rw [if_neg (by simp)] at hr
      obtain ⟨q2, hq2, hr⟩ := out_bind_val hr
      simp only [Out.val.injEq] at hr
      subst hr
      have := ih (by rw [hall, ← h2, hss]) hq2
      exact this

/-- The callback, shown these entries in this order, asked for this one to be deleted. -/
def AskedToDelete (f : List Ent → Ent → Act) (shown : List Ent) (e : Ent) : Prop :=
  ∃ a b, shown = a ++ e :: b ∧ (f a e = .delete ∨ f a e = .deleteStop)

theorem asked_iff {f : List Ent → Ent → Act} {l : List Ent} {e : Ent} : AskedToDelete f l e ↔ e ∈ Verif.Shard.dels f [] l := by
  rw [mem_dels]
  unfold AskedToDelete
  constructor
  · rintro ⟨a, b, h1, h2⟩
    exact ⟨a, b, h1, by rcases h2 with h2 | h2 <;> simp [h2, Act.del]⟩
  · rintro ⟨a, b, h1, h2⟩
    refine ⟨a, b, h1, ?_⟩
    cases hf : f ([] ++ a) e <;> rw [hf] at h2 <;> simp [Act.del] at h2 <;> simp at hf <;> simp [hf]

/-- **C11** (`_partial`: "exactly once" needs the extra hypothesis of the last clause; without it an entry
can be shown twice, `iteration_shows_entry_twice`).  An iteration shows only live stored entries of its
scope; if it is not stopped by the callback it shows every one of them, removes exactly the expired ones and
those the callback asked to delete, and leaves everything else as it was; and no entry is shown twice when in
every scanned shard no probe cluster wraps around the end of the array or nothing is deleted. -/
theorem iteration_shows_live_entries_partial {c : Ctx} (hv : c.Valid) {n : Nat} (hn : 0 < n) {mem : Nat → Mem} {now : Int}
    {one : Option Int} {f : List Ent → Ent → Act} {shs : Shards} {r : CRes} (h : Reach c n shs)
    (hr : exec c n mem now (.iter one (some f)) shs = .val r) (hnw : NoWrap n r.shs) :
    (∀ e ∈ r.seen, LiveAt e now ∧ view c n shs e.key = some e ∧ (shardIdx c n e.key) ∈ scope n one) ∧
    (r.status = .finished → ∀ k, view c n shs k ≠ none → shardIdx c n k ∈ scope n one → ∀ e, view c n shs k = some e →
      (LiveAt e now → e ∈ r.seen) ∧
      (view c n r.shs k = none ↔ ¬ LiveAt e now ∨ AskedToDelete f r.seen e)) ∧
    (∀ k e, view c n r.shs k = some e → view c n shs k = some e) ∧
    (∀ k, shardIdx c n k ∉ scope n one → view c n r.shs k = view c n shs k) ∧
    (r.status ≠ .finished ↔ ∃ pre e post, r.seen = pre ++ e :: post ∧ (f pre e = .stop ∨ f pre e = .deleteStop)) ∧
    (∀ pre e post, r.seen = pre ++ e :: post → (f pre e = .stop ∨ f pre e = .deleteStop) → post = []) ∧
    ((∀ i ∈ scope n one, Calm now (shs i) f) → r.seen.Nodup) := by
  obtain ⟨r', new, stopped, h1, h2, h3, h4, h5⟩ := iterShards_scan hv mem now f (scope n one) (scope_nodup n one)
    (scope_lt n one) [] shs (h.allInv hv hn)
  have : r' = r := by
    have : exec c n mem now (.iter one (some f)) shs = .val r' := h1
    rw [hr] at this; simpa using this.symm
  subst this
  have hno := (h.eff hv hn (mem := mem) (now := now) (op := .iter one (some f)) trivial hr hnw).2
  obtain ⟨hsc, hnd⟩ := h5 hnw (h.placed hv hn hno)
  have hse : r'.seen = new := by simpa using h3
  have hkk := fun ev hev => (hsc.kinds ev hev).1
  have hl := iterShards_last (acc := []) (by simp [stoppedBy]) h1
  have hstops : ∀ a : Act, a.stops = true ↔ a = .stop ∨ a = .deleteStop := by
    intro a; cases a <;> simp [Act.stops]
  refine ⟨?_, ?_, ?_, ?_, ?_, ?_, fun hc => hse ▸ hnd hc⟩
  · intro e he
    rw [hse] at he
    obtain ⟨p, q, s⟩ := hsc.live e he
    exact ⟨alive_iff.1 p, q, s⟩
  · intro hst k _ hks e hke
    have hs : stopped = false := by
      cases stopped with
      | false => rfl
      | true => rw [h4] at hst; simp at hst
    obtain ⟨p, q⟩ := hsc.all hs k e hks hke
    have hkey : e.key = k := shView_key (h.allInv hv hn _ (shardIdx_lt c hn k)) (hno _ (shardIdx_lt c hn k)) hke
    refine ⟨fun hl => hse ▸ p (alive_iff.2 hl), ?_⟩
    rw [hsc.after, asked_iff, hse, ← hsc.dels]
    unfold removed
    constructor
    · intro hnone
      split at hnone
      · rename_i hk
        obtain ⟨ev, hev, hek⟩ := (gone_keys hkk).1 hk
        rcases hkk ev hev with ⟨e', rfl, ha, hv'⟩ | ⟨e', rfl, ha, hv'⟩
        · left
          have : e'.key = k := hek
          rw [this, hke] at hv'
          simp only [Option.some.injEq] at hv'
          subst hv'
          rw [← alive_iff, ha]; simp
        · right
          have : e'.key = k := hek
          rw [this, hke] at hv'
          simp only [Option.some.injEq] at hv'
          subst hv'
          exact List.mem_filterMap.2 ⟨_, hev, rfl⟩
      · rw [hke] at hnone; simp at hnone
    · intro hor
      rw [if_pos]
      rw [gone_keys hkk]
      rcases hor with hl | hl
      · have : e.alive now = false := by
          rw [← alive_iff] at hl; simpa using hl
        exact ⟨_, q this, hkey⟩
      · obtain ⟨ev, hev, hee⟩ := List.mem_filterMap.1 hl
        refine ⟨ev, hev, ?_⟩
        cases ev <;> simp [Ev.deletedEnt] at hee
        rw [hee]; exact hkey
  · intro k e hke
    rw [hsc.after] at hke
    unfold removed at hke
    split at hke
    · simp at hke
    · exact hke
  · intro k hk
    rw [hsc.after]
    unfold removed
    rw [if_neg]
    rw [gone_keys hkk]
    rintro ⟨ev, hev, rfl⟩
    exact hk (hsc.kinds ev hev).2
  · rw [hl.2, stoppedBy_mem]
    simp only [List.nil_append, hstops]
  · intro pre e post hp hf
    by_contra hne
    have h3 := hl.1
    rw [hp, List.dropLast_append_of_ne_nil (by simp), List.dropLast_cons_of_ne_nil hne] at h3
    have := stoppedBy_mem (f := f) (pre := []).2 ⟨pre, e, post.dropLast, rfl, (hstops _).2 (by simpa using hf)⟩
    rw [h3] at this
    simp at this

/-! ### C12 -/

theorem sweepOp_scan {c : Ctx} (hv : c.Valid) (mem : Mem) (now : Int) {s : Sh} (h : Inv c s.map) :
    ∃ r seen, sweepOp c mem now s = .val (r, r.evs.length, seen.length) ∧ Inv c r.sh.map ∧
      (r.sh.map.ovf = false → s.map.ovf = false ∧
        PScan now (fun _ _ => .cont) ⟨shView s, s.cas⟩ (shView r.sh) r.evs seen false ∧
        (Calm now s (fun _ _ => .cont) → seen.Nodup)) := by
  obtain ⟨st', h1, h2, h3, h4, h5, h6⟩ := scan_start hv now (fun _ _ => .cont) h
  obtain ⟨m', hm, him, hcnt, _, _, hov⟩ := tryShrink_spec hv h2 mem.tbl
  unfold sweepOp
  rw [h1]
  simp only [Out.bind, hm, ofLoop]
  refine ⟨_, st'.seen, rfl, him, ?_⟩
  intro ho
  obtain ⟨ho', hc⟩ := hov ho
  rw [h3] at ho'
  obtain ⟨f', hr, hps⟩ := h6 ho' ⟨shView s, s.cas⟩ ⟨shView_rep h ho', rfl⟩
  have hns : st'.stopped = false := by rw [hps.stop]; exact stoppedBy_cont _ _
  rw [hns] at hps
  refine ⟨ho', ?_, fun hcalm => calm_scan hv h ho' hcalm h1⟩
  have : shView ({ map := m', cas := s.cas } : Sh) = f' := rep_shView (s := ({ map := m', cas := s.cas } : Sh)) him ho (by simp only []; rw [hc]; exact hr)
  rw [this]
  exact hps

theorem sweepShards_scan {c : Ctx} (hv : c.Valid) {n : Nat} (mem : Nat → Mem) (now : Int)
    (is : List Nat) (hnd : is.Nodup) (his : ∀ i ∈ is, i < n) (acc : List Ent) (shs : Shards) (h : AllInv c n shs) :
    ∃ r new, sweepShards c mem now is shs = .val (r, r.evs.length, new.length) ∧ AllInv c n r.shs ∧
      (NoWrap n r.shs → NoWrap n shs ∧ (Placed c n shs → CScan c n now (fun _ _ => .cont) is acc shs r.shs r.evs new false ∧
        ((∀ i ∈ is, Calm now (shs i) (fun _ _ => .cont)) → new.Nodup))) := by
  induction is generalizing acc shs with
  | nil => exact ⟨_, [], rfl, h, fun hnw => ⟨hnw, fun _ => ⟨CScan.nil, by simp⟩⟩⟩
  | cons i is ih =>
    have hi := his i (by simp)
    have hni := (List.nodup_cons.1 hnd).1
    obtain ⟨r, seen, hr, hinv, hsp⟩ := sweepOp_scan hv (mem i) now (h i hi)
    obtain ⟨q, new, hq, hA, hqsp⟩ := ih (List.nodup_cons.1 hnd).2 (fun j hj => his j (by simp [hj]))
      (acc ++ seen) (update shs i r.sh) (h.put hinv)
    unfold sweepShards
    rw [hr]
    simp only [Out.bind]
    rw [hq]
    refine ⟨{ q with evs := r.evs ++ q.evs }, seen ++ new, (by simp only [List.length_append]), hA, ?_⟩
    intro hnw
    obtain ⟨hnw1, hqsp⟩ := hqsp hnw
    obtain ⟨ho, hps, hno⟩ := hsp (hnw1.self hi)
    refine ⟨hnw1.back fun _ => ho, ?_⟩
    intro hpl
    have h1 := cscan_one (act := fun _ _ => .cont) (acc := acc) hi hpl rfl hps
    have hpl1 := CScan.placed hi hpl hps.after
    obtain ⟨h2, h3⟩ := hqsp hpl1
    refine ⟨CScan.trans (by simpa using hni) h1 h2, ?_⟩
    intro hc
    rw [List.nodup_append]
    refine ⟨hno (hc i (by simp)), h3 ?_, ?_⟩
    · intro j hj
      have hne : j ≠ i := fun hx => hni (hx ▸ hj)
      rw [update_of_ne hne]
      exact hc j (by simp [hj])
    · intro a ha b hb hab
      subst hab
      have p1 := (h1.live a ha).2.2
      have p2 := (h2.live a hb).2.2
      rw [List.mem_singleton.1 p1] at p2
      exact hni p2

/-- **C12** (`_partial`: the kept count is exact only under the hypothesis of the last clause; in general it
can be too large, `sweep_counts_entry_twice`).  A sweep removes from the shards in its scope exactly the
expired entries and nothing else, tells one notification per removed key, returns their number, and the kept
count is at least the number of remaining keys in scope. -/
theorem sweep_removes_expired_partial {c : Ctx} (hv : c.Valid) {n : Nat} (hn : 0 < n) {mem : Nat → Mem} {now : Int}
    {one : Option Int} {shs : Shards} {r : CRes} {swept kept : Nat} (h : Reach c n shs)
    (hr : sweepShards c mem now (scope n one) shs = .val (r, swept, kept)) (hnw : NoWrap n r.shs) :
    (∀ k, view c n r.shs k = if shardIdx c n k ∈ scope n one then liveView c n shs now k else view c n shs k) ∧
    (∃ L : List Bytes, L.Nodup ∧ L.length = swept ∧ ∀ k, k ∈ L ↔ view c n shs k ≠ none ∧ view c n r.shs k = none) ∧
    (∃ L : List Bytes, L.Nodup ∧ (∀ k, k ∈ L ↔ shardIdx c n k ∈ scope n one ∧ view c n r.shs k ≠ none) ∧
      L.length ≤ kept ∧ ((∀ i ∈ scope n one, Calm now (shs i) fun _ _ => .cont) → L.length = kept)) := by
  obtain ⟨r', new, h1, h2, h5⟩ := sweepShards_scan hv mem now (scope n one) (scope_nodup n one)
    (scope_lt n one) [] shs (h.allInv hv hn)
  rw [hr] at h1
  simp only [Out.val.injEq, Prod.mk.injEq] at h1
  obtain ⟨rfl, rfl, rfl⟩ := h1
  obtain ⟨hno, h6⟩ := h5 hnw
  obtain ⟨hsc, hnd⟩ := h6 (h.placed hv hn hno)
  have hkk := fun ev hev => (hsc.kinds ev hev).1
  have hkey : ∀ k e, view c n shs k = some e → e.key = k := fun k e hke =>
    shView_key (h.allInv hv hn _ (shardIdx_lt c hn k)) (hno _ (shardIdx_lt c hn k)) hke
  have hexp : ∀ ev ∈ r.evs, ∃ e, ev = .expired e ∧ e.alive now = false ∧ view c n shs e.key = some e := by
    intro ev hev
    rcases hkk ev hev with h' | ⟨e, rfl, _⟩
    · exact h'
    · have hm : e ∈ r.evs.filterMap Ev.deletedEnt := List.mem_filterMap.2 ⟨_, hev, rfl⟩
      rw [hsc.dels, dels_cont] at hm
      simp at hm
  have hlive : ∀ k, liveView c n shs now k = (view c n shs k).filter fun e => e.alive now := by
    intro k
    unfold liveView
    cases view c n shs k with
    | none => rfl
    | some e =>
      simp only [Option.filter]
      have := alive_iff (e := e) (t := now)
      unfold LiveAt at this
      by_cases ha : e.alive now = true
      · simp [ha, this.1 ha]
      · have hb : e.alive now = false := by simpa using ha
        rw [this] at ha
        simp [hb, ha]
  have hafter : ∀ k, view c n r.shs k = if shardIdx c n k ∈ scope n one then liveView c n shs now k else view c n shs k := by
    intro k
    rw [hsc.after]
    unfold removed
    by_cases hks : shardIdx c n k ∈ scope n one
    · rw [if_pos hks, hlive]
      cases hke : view c n shs k with
      | none => simp
      | some e =>
        obtain ⟨p, q⟩ := hsc.all rfl k e hks hke
        by_cases ha : e.alive now = true
        · simp only [Option.filter, ha, if_true]
          rw [if_neg]
          rw [gone_keys hkk]
          rintro ⟨ev, hev, hek⟩
          obtain ⟨e', rfl, ha', hv'⟩ := hexp ev hev
          have : e'.key = k := hek
          rw [this, hke] at hv'
          simp only [Option.some.injEq] at hv'
          subst hv'
          rw [ha] at ha'; simp at ha'
        · have hb : e.alive now = false := by simpa using ha
          simp only [Option.filter, hb]
          rw [if_pos]
          · rfl
          · rw [gone_keys hkk]
            exact ⟨_, q hb, hkey _ _ hke⟩
    · rw [if_neg hks, if_neg]
      rw [gone_keys hkk]
      rintro ⟨ev, hev, rfl⟩
      exact hks (hsc.kinds ev hev).2
  refine ⟨hafter, ⟨(r.evs.flatMap Ev.gone).map Ent.key, hsc.once, ?_, ?_⟩, ?_⟩
  · rw [List.length_map, List.length_flatMap]
    have : r.evs.map (fun ev => ev.gone.length) = r.evs.map fun _ => 1 := by
      apply List.map_congr_left
      intro ev hev
      obtain ⟨e, rfl, _⟩ := hexp ev hev
      simp [Ev.gone]
    rw [this]
    simp
  · intro k
    rw [hsc.after, gone_keys hkk]
    unfold removed
    constructor
    · intro hk
      have hk' := (gone_keys hkk).2 hk
      refine ⟨?_, by rw [if_pos hk']⟩
      obtain ⟨ev, hev, rfl⟩ := hk
      obtain ⟨e, rfl, _, hv'⟩ := hexp ev hev
      have : view c n shs (Ev.key (.expired e)) = some e := hv'
      rw [this]; simp
    · rintro ⟨h3, h4⟩
      split at h4
      · rename_i hk
        exact (gone_keys hkk).1 hk
      · exact absurd h4 h3
  · refine ⟨(new.map Ent.key).dedup, List.nodup_dedup _, ?_, ?_, ?_⟩
    · intro k
      rw [List.mem_dedup, List.mem_map]
      constructor
      · rintro ⟨e, he, rfl⟩
        obtain ⟨p, q, s⟩ := hsc.live e he
        refine ⟨s, ?_⟩
        rw [hafter, if_pos s, hlive, q]
        simp [Option.filter, p]
      · rintro ⟨hks, hne⟩
        rw [hafter, if_pos hks, hlive] at hne
        cases hke : view c n shs k with
        | none => rw [hke] at hne; simp at hne
        | some e =>
          rw [hke] at hne
          by_cases ha : e.alive now = true
          · exact ⟨e, (hsc.all rfl k e hks hke).1 ha, hkey _ _ hke⟩
          · simp [Option.filter, ha] at hne
    · have := (List.dedup_sublist (new.map Ent.key)).length_le
      simpa using this
    · intro hc
      have hn := hnd hc
      have : (new.map Ent.key).Nodup := by
        refine hn.map_on ?_
        intro a ha b hb hab
        have h1 := (hsc.live a ha).2.1
        have h2 := (hsc.live b hb).2.1
        rw [hab, h2] at h1
        simpa using h1.symm
      rw [List.Nodup.dedup this]
      simp

/-! ### Witnesses -/

namespace Example

/-- Two keys whose home is the last bucket; the first expires at time 105. -/
def pair : List Call := [⟨.store [1] [10] (sOpts 5), okMem, 100⟩, ⟨.store [3] [30] (sOpts 0), okMem, 100⟩]

theorem pair_ok : ∀ x ∈ pair, OpOk x.mem x.now x.op := by
  intro x hx
  unfold pair at hx
  simp only [List.mem_cons, List.not_mem_nil, or_false] at hx
  rcases hx with rfl | rfl
  · exact ⟨⟨105, by decide⟩, fun _ => rfl⟩
  · exact ⟨⟨0, by decide⟩, fun _ => rfl⟩

/-- An iteration after some calls: notifications fit, keys shown, status. -/
def iterAfter (l : List Call) (now : Int) (f : List Ent → Ent → Act) (n : Nat) : Out (Shards × CRes) :=
  (runCalls ctx n l (newCache ctx)).bind fun x => (exec ctx n okMem now (.iter none (some f)) x.1).bind fun r => .val (x.1, r)

def sweepAfter (l : List Call) (now : Int) (n : Nat) : Out (Shards × CRes × Nat × Nat) :=
  (runCalls ctx n l (newCache ctx)).bind fun x => (sweepShards ctx okMem now (scope n none) x.1).bind fun r => .val (x.1, r)

end Example

/-- **C11, negation.**  A full iteration with a callback that only looks can show the same live entry twice:
the probe cluster wraps around the end of the array, and the removal of an expired entry in the last bucket
moves the entry of the first bucket, already shown, into the last one. -/
theorem iteration_shows_entry_twice : ∃ shs r, Reach Example.ctx 1 shs ∧
    exec Example.ctx 1 Example.okMem 106 (.iter none (some fun _ _ => .cont)) shs = .val r ∧ NoWrap 1 r.shs ∧
    r.status = .finished ∧ r.seen.map Ent.key = [[3], [3]] := by
  obtain ⟨⟨shs, r⟩, hr, h⟩ := Out.of_test (o := Example.iterAfter Example.pair 106 (fun _ _ => .cont) 1)
    (p := fun x => noWrapB 1 x.2.shs = true ∧ x.2.status = .finished ∧ x.2.seen.map Ent.key = [[3], [3]]) (by decide +kernel)
  unfold Example.iterAfter at hr
  obtain ⟨x, hx, hr⟩ := out_bind_val hr
  obtain ⟨q, hq, hr⟩ := out_bind_val hr
  simp only [Out.val.injEq, Prod.mk.injEq] at hr
  obtain ⟨rfl, rfl⟩ := hr
  exact ⟨x.1, q, runCalls_reach .new Example.pair_ok hx, hq, noWrapB_iff.1 h.1, h.2⟩

/-- **C12, negation.**  A sweep of two entries, one of them expired, reports one swept and two kept. -/
theorem sweep_counts_entry_twice : ∃ shs r, Reach Example.ctx 1 shs ∧ NoWrap 1 r.shs ∧
    sweepShards Example.ctx Example.okMem 106 (scope 1 none) shs = .val (r, 1, 2) ∧ count 1 shs = 2 ∧ count 1 r.shs = 1 := by
  obtain ⟨⟨shs, r, sw, kp⟩, hr, h⟩ := Out.of_test (o := Example.sweepAfter Example.pair 106 1)
    (p := fun x => noWrapB 1 x.2.1.shs = true ∧ x.2.2 = (1, 2) ∧ count 1 x.1 = 2 ∧ count 1 x.2.1.shs = 1) (by decide +kernel)
  unfold Example.sweepAfter at hr
  obtain ⟨x, hx, hr⟩ := out_bind_val hr
  obtain ⟨q, hq, hr⟩ := out_bind_val hr
  simp only [Out.val.injEq, Prod.mk.injEq] at hr
  obtain ⟨rfl, rfl⟩ := hr
  obtain ⟨h1, h2, h3, h4⟩ := h
  simp only [Prod.mk.injEq] at h2
  obtain ⟨rfl, rfl⟩ := h2
  exact ⟨x.1, r, runCalls_reach .new Example.pair_ok hx, noWrapB_iff.1 h1, hq, h3, h4⟩

/-- The hypotheses of the two theorems above hold for the history of `Example.calls` too, over two shards,
with a callback that deletes the first entry and stops at the second. -/
example : ∃ shs r, Reach Example.ctx 2 shs ∧
    exec Example.ctx 2 Example.okMem 101 (.iter none (some fun pre _ => if pre.length = 0 then .delete else .stop)) shs = .val r ∧
    NoWrap 2 r.shs ∧ r.status = .canceled ∧ r.seen.map Ent.key = [[3], [1]] ∧ r.evs.map Example.evText = [("deleted", [3], [30])] := by
  obtain ⟨⟨shs, r⟩, hr, h⟩ := Out.of_test
    (o := Example.iterAfter Example.pair 101 (fun pre _ => if pre.length = 0 then .delete else .stop) 2)
    (p := fun x => noWrapB 2 x.2.shs = true ∧ x.2.status = .canceled ∧ x.2.seen.map Ent.key = [[3], [1]] ∧
      x.2.evs.map Example.evText = [("deleted", [3], [30])]) (by decide +kernel)
  unfold Example.iterAfter at hr
  obtain ⟨x, hx, hr⟩ := out_bind_val hr
  obtain ⟨q, hq, hr⟩ := out_bind_val hr
  simp only [Out.val.injEq, Prod.mk.injEq] at hr
  obtain ⟨rfl, rfl⟩ := hr
  exact ⟨x.1, q, runCalls_reach .new Example.pair_ok hx, hq, noWrapB_iff.1 h.1, h.2⟩

end Verif.Cache
