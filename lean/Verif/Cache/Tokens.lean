import Verif.Cache.Cond

/-!
C06: CAS tokens prevent lost updates.

The token counter of a shard (a 64-bit number in the code) is an unbounded number here; it would take 2^64
stores to one shard for it to wrap.
-/

namespace Verif.Cache

open Verif.Map Verif.Shard Function

/-- What is under a key after replaying notifications: what was there if none is about the key, or an entry
written by one of them. -/
theorem _root_.Verif.Shard.Replays.source {evs : List Ev} {f f' : Bytes → Option Ent} (h : Replays evs f f') {k : Bytes} {x : Ent}
    (hx : f' k = some x) :
    ((∀ ev ∈ evs, Ev.key ev ≠ k) ∧ f k = some x) ∨ ∃ ev ∈ evs, ∃ e ∈ ev.written, e.key = k ∧ x = Ent.strip e := by
  induction evs generalizing f with
  | nil =>
    have : f' = f := h
    left; rw [← this]; exact ⟨by simp, hx⟩
  | cons a l ih =>
    rcases ih h.2 with ⟨h1, h2⟩ | ⟨ev, h1, h2⟩
    · by_cases hk : Ev.key a = k
      · subst hk
        right
        cases a with
        | inserted e =>
          simp only [Ev.apply, Ev.key, update_self, Option.some.injEq] at h2
          exact ⟨.inserted e, by simp, e, by simp [Ev.written], rfl, h2.symm⟩
        | replaced e o =>
          simp only [Ev.apply, Ev.key, update_self, Option.some.injEq] at h2
          exact ⟨.replaced e o, by simp, e, by simp [Ev.written], rfl, h2.symm⟩
        | deleted e => simp [Ev.apply, Ev.key] at h2
        | expired e => simp [Ev.apply, Ev.key] at h2
        | cleared e => simp [Ev.apply, Ev.key] at h2
        | lowmem e => simp [Ev.apply, Ev.key] at h2
      · left
        rw [apply_other hk] at h2
        refine ⟨?_, h2⟩
        intro ev hev
        rcases List.mem_cons.1 hev with rfl | hev
        · exact hk
        · exact h1 ev hev
    · exact Or.inr ⟨ev, by simp [h1], h2⟩

theorem stripped_view {f : Bytes → Option Ent} {k : Bytes} {e : Ent} (h : f k = some e) :
    stripped f k = some (Ent.strip e) := by unfold stripped; rw [h]; rfl

theorem strip_id {a b : Ent} (h : Ent.strip a = Ent.strip b) : a.id = b.id :=
  show (Ent.strip a).id = (Ent.strip b).id by rw [h]

theorem strip_cas {a b : Ent} (h : Ent.strip a = Ent.strip b) : a.cas = b.cas :=
  show (Ent.strip a).cas = (Ent.strip b).cas by rw [h]

/-- The number of every stored entry was given out by its shard, and its token is that number. -/
theorem token_bound {c : Ctx} (hv : c.Valid) {n : Nat} (hn : 0 < n) {shs : Shards} (h : Reach c n shs)
    (hnw : NoWrap n shs) {k : Bytes} {e : Ent} (he : view c n shs k = some e) :
    e.id ≤ (shs (shardIdx c n k)).cas ∧ e.cas = if c.usecas then e.id else 0 := by
  induction h generalizing e with
  | new => rw [view_new] at he; simp at he
  | call hre hok hr ih =>
    obtain ⟨heff, hnw0⟩ := hre.eff hv hn hok hr hnw
    have hse := stripped_view he
    rcases heff.replay.source hse with ⟨_, h2⟩ | ⟨ev, h1, e1, h2, h3, h4⟩
    · unfold stripped at h2
      obtain ⟨e0, h5, h6⟩ := Option.map_eq_some_iff.1 h2
      obtain ⟨h7, h8⟩ := ih hnw0 h5
      have hid : e0.id = e.id := strip_id h6
      have hcas : e0.cas = e.cas := strip_cas h6
      rw [hid] at h7 h8
      rw [hcas] at h8
      exact ⟨le_trans h7 (heff.mono _), h8⟩
    · obtain ⟨_, _, h5, h6⟩ := heff.fresh ev h1 e1 h2
      have hid : e.id = e1.id := strip_id h4
      have hcas : e.cas = e1.cas := strip_cas h4
      rw [h3] at h5
      rw [hid, hcas]
      exact ⟨h5, h6⟩

/-- Over several calls: the entry under a key is the old one, untouched, or has a newer number. -/
theorem version_grows {c : Ctx} (hv : c.Valid) {n : Nat} (hn : 0 < n) {l : List Call} {shs shs' : Shards} {rs : List CRes}
    (h : Reach c n shs) (hok : ∀ x ∈ l, OpOk x.mem x.now x.op) (hr : runCalls c n l shs = .val (shs', rs))
    (hnw : NoWrap n shs') {k : Bytes} {e' : Ent} (he' : view c n shs' k = some e') :
    ((∀ r ∈ rs, ∀ ev ∈ r.evs, Ev.key ev ≠ k) ∧ ∃ e, view c n shs k = some e ∧ Ent.strip e = Ent.strip e') ∨
    (shs (shardIdx c n k)).cas < e'.id := by
  induction l generalizing shs rs with
  | nil =>
    simp only [runCalls, Out.val.injEq, Prod.mk.injEq] at hr
    obtain ⟨rfl, rfl⟩ := hr
    exact Or.inl ⟨by simp, e', he', rfl⟩
  | cons x l ih =>
    obtain ⟨r, rs', h1, h2, rfl⟩ := runCalls_cons hr
    have hre : Reach c n r.shs := .call h (hok x (by simp)) h1
    have hok' : ∀ y ∈ l, OpOk y.mem y.now y.op := fun y hy => hok y (by simp [hy])
    have hnr := runCalls_nowrap hv hn hre hok' h2 hnw
    obtain ⟨heff, _⟩ := h.eff hv hn (hok x (by simp)) h1 hnr
    rcases ih hre hok' h2 with ⟨h3, e1, h4, h5⟩ | h3
    · have hse : stripped (view c n r.shs) k = some (Ent.strip e1) := by unfold stripped; rw [h4]; rfl
      rcases heff.replay.source hse with ⟨h6, h7⟩ | ⟨ev, h6, e2, h7, h8, h9⟩
      · left
        refine ⟨?_, ?_⟩
        · intro q hq
          rcases List.mem_cons.1 hq with rfl | hq
          · exact h6
          · exact h3 q hq
        · unfold stripped at h7
          obtain ⟨e0, h10, h11⟩ := Option.map_eq_some_iff.1 h7
          exact ⟨e0, h10, h11.trans h5⟩
      · right
        obtain ⟨_, h10, _, _⟩ := heff.fresh ev h6 e2 h7
        have : e'.id = e2.id := by
          have h12 : e1.id = e'.id := strip_id h5
          have h13 : e1.id = e2.id := strip_id h9
          omega
        rw [h8] at h10
        omega
    · exact Or.inr (lt_of_le_of_lt (heff.mono _) h3)

/-- **C06.**  A token of key `k` is read from a state, any calls follow, and then a CAS store of `k` with that
token succeeds.  Then none of the calls in between reported a change of `k`, and what the store replaces is
what was read. -/
theorem cas_prevents_lost_update {c : Ctx} (hv : c.Valid) (hc : c.usecas = true) {n : Nat} (hn : 0 < n)
    {l : List Call} {shs shs1 : Shards} {rs : List CRes} {r : CRes} (h : Reach c n shs) {k : Bytes} {e : Ent}
    (he : view c n shs k = some e) (hok : ∀ x ∈ l, OpOk x.mem x.now x.op) (hr : runCalls c n l shs = .val (shs1, rs))
    {mem : Nat → Mem} {now : Int} {val : Bytes} {o : StoreOpts} (ho : OpOk mem now (.store k val o))
    (hx : exec c n mem now (.store k val o) shs1 = .val r) (hnw : NoWrap n r.shs)
    (hcas : o.casop = true) (htok : o.cas = e.cas) (hs : r.status = .replaced) :
    (∀ q ∈ rs, ∀ ev ∈ q.evs, Ev.key ev ≠ k) ∧ ∃ e1, view c n shs1 k = some e1 ∧ Ent.strip e1 = Ent.strip e := by
  have hre1 := runCalls_reach h hok hr
  obtain ⟨_, hnw1⟩ := hre1.eff hv hn ho hx hnw
  have hnw0 := runCalls_nowrap hv hn h hok hr hnw1
  obtain ⟨req, _, h1 | h1⟩ := store_does_what_is_asked hv hn hre1 ho hx hnw
  · rw [hs] at h1; simp at h1
  · have hst := h1.status
    rw [hs] at hst
    cases hl : liveView c n shs1 now k with
    | none =>
      rw [hl] at hst
      unfold wanted at hst
      simp [hcas] at hst
    | some e1 =>
      rw [hl] at hst
      have hv1 : view c n shs1 k = some e1 := by
        unfold liveView at hl
        exact (Option.filter_eq_some_iff.1 hl).1
      have hce : e1.cas = e.cas := by
        unfold wanted at hst
        by_contra hne
        have hcond : o.casop = true ∧ (c.usecas = false ∨ o.cas ≠ e1.cas) :=
          ⟨hcas, Or.inr (by rw [htok]; exact Ne.symm hne)⟩
        simp only [if_pos hcond] at hst
        simp at hst
      obtain ⟨hb1, hb2⟩ := token_bound hv hn h hnw0 he
      obtain ⟨_, hb3⟩ := token_bound hv hn hre1 hnw1 hv1
      rw [hc, if_pos rfl] at hb2 hb3
      rcases version_grows hv hn h hok hr hnw1 hv1 with ⟨h2, e2, h3, h4⟩ | h2
      · rw [he] at h3
        simp only [Option.some.injEq] at h3
        subst h3
        exact ⟨h2, e1, hv1, h4.symm⟩
      · omega

/-- The entries a call writes. -/
def CRes.written (r : CRes) : List Ent := r.evs.flatMap Ev.written

/-- A call writes at most one entry. -/
theorem writes_at_most_one {c : Ctx} (hv : c.Valid) {n : Nat} (hn : 0 < n) {mem : Nat → Mem} {now : Int} {op : Op}
    {shs : Shards} {r : CRes} (h : Reach c n shs) (hok : OpOk mem now op) (hr : exec c n mem now op shs = .val r)
    (hnw : NoWrap n r.shs) : r.written.length ≤ 1 := by
  obtain ⟨heff, hnw0⟩ := h.eff hv hn hok hr hnw
  have hnone : op.writes = [] → r.written.length ≤ 1 := by
    intro hw
    have : r.written = [] := by
      rw [List.eq_nil_iff_forall_not_mem]
      intro e he
      obtain ⟨ev, h1, h2⟩ := List.mem_flatMap.1 he
      have := (heff.fresh ev h1 e h2).1
      rw [hw] at this
      simp at this
    rw [this]; simp
  cases op with
  | load k o =>
    have hi := shardIdx_lt c hn k
    obtain ⟨q, hq, rfl⟩ := onKey_val hr
    have hinv := h.allInv hv hn _ hi
    obtain ⟨q', hq', hspec⟩ := loadOp_spec hv (mem (shardIdx c n k)) now k o hinv
    rw [hq] at hq'
    simp only [Out.val.injEq] at hq'
    subst hq'
    have ho := hnw0 _ hi
    obtain ⟨-, -, hev, -⟩ := hspec.2.2 ho ⟨shView (shs (shardIdx c n k)), _⟩ ⟨shView_rep hinv ho, rfl⟩
    unfold CRes.written
    simp only []
    rw [hev]
    unfold pLoad
    simp only []
    split
    · simp
    · split
      · split
        · simp
        · split
          · simp
          · split <;> simp [Ev.written]
      · simp [Ev.written]
  | store k v o =>
    have hi := shardIdx_lt c hn k
    obtain ⟨q, hq, rfl⟩ := onKey_val hr
    have hinv := h.allInv hv hn _ hi
    obtain ⟨⟨req, hreq⟩, hm⟩ := hok
    rcases storeOp_spec hv (mem (shardIdx c n k)) now k v o hinv hreq (hm _) with ⟨q', hq', hi', _, hspec⟩ | ha
    · rw [hq] at hq'
      simp only [Out.val.injEq] at hq'
      subst hq'
      obtain ⟨ho, hspec⟩ := hspec (hnw.self hi)
      obtain ⟨x, -, -, hev, -, hif⟩ := hspec ⟨shView (shs (shardIdx c n k)), _⟩ ⟨shView_rep hinv ho, rfl⟩
      unfold CRes.written
      simp only []
      rw [hev]
      have hdead : ∀ p : PS, (p.deadEvs now k).flatMap Ev.written = [] := by
        intro p
        unfold PS.deadEvs
        split
        · split <;> simp [Ev.written]
        · rfl
      by_cases hno : storeNomem c (mem (shardIdx c n k)) o (shs (shardIdx c n k)) = true
      · rw [if_pos hno] at hif
        subst hif; simp
      · rw [if_neg hno] at hif
        unfold PStore at hif
        simp only [] at hif
        split at hif
        · split at hif
          · subst hif; simp
          · split at hif <;> subst hif <;> simp [Ev.written]
        · split at hif
          · subst hif; simp [hdead]
          · rcases hif with rfl | ⟨_, _, w, ev, hevd, _, _, rfl⟩
            · simp [hdead, Ev.written]
            · rcases hevd with ⟨_, rfl⟩ | ⟨_, rfl⟩ <;> simp [Ev.written]
    · rw [hq] at ha; simp at ha
  | delete k cb => exact hnone rfl
  | iter one cb => exact hnone rfl
  | sweep one => exact hnone rfl
  | clear one => exact hnone rfl

/-- All versions of a key ever written by some calls, in order. -/
def versions (rs : List CRes) (k : Bytes) : List Ent := (rs.flatMap CRes.written).filter fun e => e.key = k

/-- **C06.**  The tokens of the versions of a key strictly increase over any history: no two versions of a key
share a token, also when the key was deleted, expired or evicted in between. -/
theorem tokens_increase {c : Ctx} (hv : c.Valid) (hc : c.usecas = true) {n : Nat} (hn : 0 < n)
    {l : List Call} {shs shs1 : Shards} {rs : List CRes} (h : Reach c n shs)
    (hok : ∀ x ∈ l, OpOk x.mem x.now x.op) (hr : runCalls c n l shs = .val (shs1, rs)) (hnw : NoWrap n shs1) (k : Bytes) :
    ((versions rs k).map Ent.cas).Pairwise (· < ·) := by
  suffices hs : ((versions rs k).map Ent.cas).Pairwise (· < ·) ∧
      ∀ e ∈ versions rs k, (shs (shardIdx c n k)).cas < e.cas from hs.1
  induction l generalizing shs rs with
  | nil =>
    simp only [runCalls, Out.val.injEq, Prod.mk.injEq] at hr
    obtain ⟨rfl, rfl⟩ := hr
    simp [versions]
  | cons x l ih =>
    obtain ⟨r, rs', h1, h2, rfl⟩ := runCalls_cons hr
    have hre : Reach c n r.shs := .call h (hok x (by simp)) h1
    have hok' : ∀ y ∈ l, OpOk y.mem y.now y.op := fun y hy => hok y (by simp [hy])
    have hnr := runCalls_nowrap hv hn hre hok' h2 hnw
    obtain ⟨heff, _⟩ := h.eff hv hn (hok x (by simp)) h1 hnr
    have hone := writes_at_most_one hv hn h (hok x (by simp)) h1 hnr
    obtain ⟨ih1, ih2⟩ := ih hre hok' h2
    have hsplit : versions (r :: rs') k = (r.written.filter fun e => e.key = k) ++ versions rs' k := by
      unfold versions; simp
    have hw : ∀ e ∈ r.written.filter (fun e => e.key = k), (shs (shardIdx c n k)).cas < e.cas ∧ e.cas ≤ (r.shs (shardIdx c n k)).cas := by
      intro e he
      obtain ⟨h3, h4⟩ := List.mem_filter.1 he
      obtain ⟨ev, h5, h6⟩ := List.mem_flatMap.1 h3
      obtain ⟨_, h7, h8, h9⟩ := heff.fresh ev h5 e h6
      rw [hc, if_pos rfl] at h9
      have h10 : e.key = k := by simpa using h4
      rw [h10] at h7 h8
      rw [h9]
      exact ⟨h7, h8⟩
    have hlen : (r.written.filter fun e => e.key = k).length ≤ 1 := le_trans (List.length_filter_le _ _) hone
    rw [hsplit]
    constructor
    · rw [List.map_append, List.pairwise_append]
      refine ⟨?_, ih1, ?_⟩
      · generalize r.written.filter (fun e => e.key = k) = w at hlen
        match w, hlen with
        | [], _ => simp
        | [a], _ => simp
        | a :: b :: t, hl => simp at hl
      · intro a ha b hb
        obtain ⟨ea, h3, rfl⟩ := List.mem_map.1 ha
        obtain ⟨eb, h4, rfl⟩ := List.mem_map.1 hb
        exact lt_of_le_of_lt (hw ea h3).2 (ih2 eb h4)
    · intro e he
      rcases List.mem_append.1 he with he | he
      · exact (hw e he).1
      · exact lt_of_le_of_lt (heff.mono _) (ih2 e he)

/-- Two versions of one key with a delete in between; then a CAS store with the current token succeeds and one
with the first token does not. -/
example :
    [Example.condOut Example.ctx (.store [1] [11] (Example.cOpts true 2 false false false none)),
     Example.condOut Example.ctx (.store [1] [11] (Example.cOpts true 1 false false false none))].map
      (fun o => o.test fun x => x.2.1 = some .replaced) = [true, false] ∧
    ((runCalls Example.ctx 1 [⟨.store [1] [10] (Example.sOpts 0), Example.okMem, 100⟩, ⟨.delete [1] none, Example.okMem, 100⟩,
      ⟨.store [1] [11] (Example.sOpts 0), Example.okMem, 100⟩] (newCache Example.ctx)).test fun x =>
        (versions x.2 [1]).map Ent.cas = [2, 3] ∧ noWrapB 1 x.1 = true) = true := by decide +kernel

end Verif.Cache
