import Verif.Cache.History

/-!
C05 (conditional stores), C07 (put-back), C08 (probing), C09 (eviction).
-/

namespace Verif.Cache

open Verif.Map Verif.Shard Function

/-! ### C05 -/

/-- The entry a key shows at a time. -/
def liveView (c : Ctx) (n : Nat) (shs : Shards) (now : Int) (key : Bytes) : Option Ent :=
  (view c n shs key).filter fun e => e.expires = 0 ∨ now < e.expires

/-- What the options ask for, given the live entry: `found` when a CAS token differs (or tokens are not
kept) or NX is given, `canceled` when the callback vetoes, `notfound` when XX or CAS miss the entry. -/
def wanted (usecas : Bool) (o : StoreOpts) : Option Ent → Status
  | some e =>
    if o.casop = true ∧ (usecas = false ∨ o.cas ≠ e.cas) then .found
    else if o.casop = false ∧ o.nx = true then .found
    else if ∃ f, o.entry = some f ∧ f e = false then .canceled
    else .replaced
  | none => if o.xx = true ∨ o.casop = true then .notfound else .inserted

/-- The entry a successful store leaves: the given value and flags, the expiry asked for (or that of the live
entry when it is to be kept), and a new token. -/
structure NewEntry (c : Ctx) (n : Nat) (shs : Shards) (now : Int) (key val : Bytes) (o : StoreOpts) (req : Int) (e : Ent) : Prop where
  isKey : e.key = key
  isVal : e.value = val
  isFlags : e.flags = o.flags
  isExp : e.expires = match o.keepttl, liveView c n shs now key with
    | true, some old => if old.expires > 0 then old.expires else 0
    | _, _ => if req > 0 then req else 0
  isCas : e.cas = if c.usecas then (shs (shardIdx c n key)).cas + 1 else 0
  isTime : e.time = now

theorem view_upd {c : Ctx} {n : Nat} {shs : Shards} {sh : Sh} {k : Bytes} {v : Option Ent} {i : Nat}
    (hk : shardIdx c n k = i) (h : shView sh = update (shView (shs i)) k v) :
    view c n (update shs i sh) = update (view c n shs) k v := by
  funext j
  unfold view
  by_cases hj : shardIdx c n j = i
  · rw [hj, update_self, h]
    by_cases hjk : j = k
    · subst hjk; simp
    · rw [update_of_ne hjk, update_of_ne hjk, hj]
  · rw [update_of_ne hj]
    have : j ≠ k := fun hc => hj (hc ▸ hk)
    rw [update_of_ne this]

theorem view_upd2 {c : Ctx} {n : Nat} {shs : Shards} {sh : Sh} {k k' : Bytes} {v v' : Option Ent} {i : Nat}
    (hk : shardIdx c n k = i) (hk' : shardIdx c n k' = i) (h : shView sh = update (update (shView (shs i)) k v) k' v') :
    view c n (update shs i sh) = update (update (view c n shs) k v) k' v' := by
  funext j
  unfold view
  by_cases hj : shardIdx c n j = i
  · rw [hj, update_self, h]
    by_cases hjk' : j = k'
    · subst hjk'; simp
    · rw [update_of_ne hjk', update_of_ne hjk']
      by_cases hjk : j = k
      · subst hjk; simp
      · rw [update_of_ne hjk, update_of_ne hjk, hj]
  · rw [update_of_ne hj]
    have h1 : j ≠ k := fun hc => hj (hc ▸ hk)
    have h2 : j ≠ k' := fun hc => hj (hc ▸ hk')
    rw [update_of_ne h2, update_of_ne h1]

theorem view_same {c : Ctx} {n : Nat} {shs : Shards} {sh : Sh} {i : Nat} (h : shView sh = shView (shs i)) :
    view c n (update shs i sh) = view c n shs := by
  funext j
  unfold view
  by_cases hj : shardIdx c n j = i
  · rw [hj, update_self, h]
  · rw [update_of_ne hj]

theorem live_eq {c : Ctx} {n : Nat} {shs : Shards} {now : Int} {key : Bytes} {cas : Nat} :
    PS.live ⟨shView (shs (shardIdx c n key)), cas⟩ now key = liveView c n shs now key := by
  unfold PS.live liveView view
  simp only []
  cases shView (shs (shardIdx c n key)) key with
  | none => rfl
  | some e =>
    simp only [Option.filter, Ent.alive, aliveExp]
    by_cases h : e.expires = 0 ∨ now < e.expires
    · simp [h]
    · simp [h]

theorem refuses_iff {cb : Option (Ent → Bool)} {e : Ent} : refuses cb e = true ↔ ∃ f, cb = some f ∧ f e = false := by
  unfold refuses
  cases cb <;> simp

theorem wanted_some {c : Ctx} {o : StoreOpts} {e : Ent} : wanted c.usecas o (some e) =
    if putBack c o e then .found else if refuses o.entry e then .canceled else .replaced := by
  unfold wanted putBack
  simp only [← refuses_iff]
  cases o.casop <;> cases o.nx <;> cases c.usecas <;> simp

theorem wanted_none {c : Ctx} {o : StoreOpts} : wanted c.usecas o none = if o.xx || o.casop then .notfound else .inserted := by
  unfold wanted
  cases o.casop <;> cases o.xx <;> simp

/-- Everything about one store call. -/
structure StoreDone (c : Ctx) (n : Nat) (now : Int) (key val : Bytes) (o : StoreOpts) (req : Int) (shs : Shards) (r : CRes) : Prop where
  status : r.status = wanted c.usecas o (liveView c n shs now key)
  kept : r.status = .found ∨ r.status = .canceled → view c n r.shs = view c n shs ∧ r.evs = []
  absent : r.status = .notfound → view c n r.shs = update (view c n shs) key none
  replaced : r.status = .replaced → ∃ e, NewEntry c n shs now key val o req e ∧
    view c n r.shs = update (view c n shs) key (some e)
  inserted : r.status = .inserted → ∃ e, NewEntry c n shs now key val o req e ∧
    (view c n r.shs = update (view c n shs) key (some e) ∨
      o.lowmem = true ∧ view c n shs key = none ∧ ∃ v, v.key ≠ key ∧ view c n shs v.key = some v ∧
        view c n r.shs = update (update (view c n shs) key (some e)) v.key none ∧
        (LiveAt v now ∧ r.evs = [.lowmem v, .inserted e] ∨ ¬ LiveAt v now ∧ r.evs = [.expired v, .inserted e]))

theorem store_done {c : Ctx} (hv : c.Valid) {n : Nat} (hn : 0 < n) {mem : Nat → Mem} {now : Int} {key val : Bytes}
    {o : StoreOpts} {shs : Shards} {r : CRes} (h : Reach c n shs) {req : Int} (hreq : reqExpires o now = .val req)
    (hm : (mem (shardIdx c n key)).ent = true) (hr : exec c n mem now (.store key val o) shs = .val r)
    (hnw : NoWrap n r.shs) :
    (r.status = .nomem ∧ view c n r.shs = view c n shs ∧ r.evs = [] ∧
      (o.lowmem = true ∧ c.noevict = true ∨ (mem (shardIdx c n key)).tbl = false)) ∨
    StoreDone c n now key val o req shs r := by
  have hi := shardIdx_lt c hn key
  obtain ⟨q0, hq0, rfl⟩ := onKey_val hr
  have hinv := h.allInv hv hn _ hi
  have hovf : q0.sh.map.ovf = false := hnw.self hi
  rcases storeOp_spec hv (mem (shardIdx c n key)) now key val o hinv hreq hm with ⟨q1, hq1, hi1, hnom, hspec⟩ | ha
  swap
  · rw [hq0] at ha; simp at ha
  rw [hq0] at hq1
  simp only [Out.val.injEq] at hq1
  subst hq1
  obtain ⟨ho, hspec⟩ := hspec hovf
  set i := shardIdx c n key with hidx
  obtain ⟨q, hrep, hst, hev, hseen, hif⟩ := hspec ⟨shView (shs i), (shs i).cas⟩ ⟨shView_rep hinv ho, rfl⟩
  have hvw : shView q0.sh = q.ps.f := rep_shView hi1 hovf hrep.1
  have hkeyed : Keyed (shView (shs i)) := (shView_rep hinv ho).keyed
  have hpl : ∀ v, shView (shs i) v = none ∨ shardIdx c n v = i := by
    intro v
    cases hvv : shView (shs i) v with
    | none => exact Or.inl rfl
    | some e => exact Or.inr (h.placed hv hn (hnw.back fun _ => ho) i hi v e hvv)
  by_cases hno : storeNomem c (mem i) o (shs i) = true
  · left
    rw [if_pos hno] at hif
    subst hif
    refine ⟨hst, view_same hvw, hev, ?_⟩
    unfold storeNomem at hno
    simp only [Bool.or_eq_true, Bool.and_eq_true, decide_eq_true_eq, Bool.not_eq_eq_eq_not, Bool.not_true] at hno
    rcases hno with h1 | h1
    · exact Or.inl h1
    · exact Or.inr h1.2
  · right
    rw [if_neg hno] at hif
    have hlive : PS.live ⟨shView (shs i), (shs i).cas⟩ now key = liveView c n shs now key := live_eq
    have hnew : NewEntry c n shs now key val o req
        (PS.newEnt ⟨shView (shs i), (shs i).cas⟩ c now key val o req) := by
      refine ⟨rfl, rfl, rfl, ?_, ?_, rfl⟩
      · unfold PS.newEnt mkEnt PS.expiry
        simp only [hlive]
        cases o.keepttl <;> cases liveView c n shs now key <;> simp
      · unfold PS.newEnt mkEnt
        simp only []
        rfl
    unfold PStore at hif
    simp only [hlive] at hif
    cases hl : liveView c n shs now key with
    | some old =>
      simp only [hl] at hif
      by_cases hpb : putBack c o old = true
      · rw [if_pos hpb] at hif
        subst hif
        refine ⟨?_, ?_, ?_, ?_, ?_⟩
        · simp only [hst, hl, wanted_some, hpb, if_true]
        · intro _; exact ⟨view_same hvw, hev⟩
        · intro hs; simp [hst] at hs
        · intro hs; simp [hst] at hs
        · intro hs; simp [hst] at hs
      · rw [if_neg hpb] at hif
        by_cases hrf : refuses o.entry old = true
        · rw [if_pos hrf] at hif
          subst hif
          refine ⟨?_, ?_, ?_, ?_, ?_⟩
          · simp only [hst, hl, wanted_some, if_neg hpb, if_pos hrf]
          · intro _; exact ⟨view_same hvw, hev⟩
          · intro hs; simp [hst] at hs
          · intro hs; simp [hst] at hs
          · intro hs; simp [hst] at hs
        · rw [if_neg hrf] at hif
          subst hif
          refine ⟨?_, ?_, ?_, ?_, ?_⟩
          · simp only [hst, hl, wanted_some, if_neg hpb, if_neg hrf]
          · intro hs; simp [hst] at hs
          · intro hs; simp [hst] at hs
          · intro _; exact ⟨_, hnew, view_upd hidx.symm hvw⟩
          · intro hs; simp [hst] at hs
    | none =>
      simp only [hl] at hif
      by_cases hx : (o.xx || o.casop) = true
      · rw [if_pos hx] at hif
        subst hif
        refine ⟨?_, ?_, ?_, ?_, ?_⟩
        · simp only [hst, hl, wanted_none, if_pos hx]
        · intro hs; simp [hst] at hs
        · intro _; exact view_upd hidx.symm hvw
        · intro hs; simp [hst] at hs
        · intro hs; simp [hst] at hs
      · rw [if_neg hx] at hif
        rcases hif with rfl | ⟨hlow, hfn, v, ev, hevd, hvk, hfv, rfl⟩
        · refine ⟨?_, ?_, ?_, ?_, ?_⟩
          · simp only [hst, hl, wanted_none, if_neg hx]
          · intro hs; simp [hst] at hs
          · intro hs; simp [hst] at hs
          · intro hs; simp [hst] at hs
          · intro _; exact ⟨_, hnew, Or.inl (view_upd hidx.symm hvw)⟩
        · have hvi : shardIdx c n v.key = i := by
            rcases hpl v.key with h1 | h1
            · rw [h1] at hfv; simp at hfv
            · exact h1
          refine ⟨?_, ?_, ?_, ?_, ?_⟩
          · simp only [hst, hl, wanted_none, if_neg hx]
          · intro hs; simp [hst] at hs
          · intro hs; simp [hst] at hs
          · intro hs; simp [hst] at hs
          · intro _
            refine ⟨_, hnew, Or.inr ⟨hlow, ?_, v, hvk, ?_, ?_, ?_⟩⟩
            · unfold view; rw [← hidx]; exact hfn
            · unfold view; rw [hvi]; exact hfv
            · exact view_upd2 hidx.symm hvi hvw
            · rcases hevd with ⟨h1, rfl⟩ | ⟨h1, rfl⟩
              · right
                exact ⟨fun h2 => by rw [alive_iff.2 h2] at h1; simp at h1, hev⟩
              · left
                exact ⟨alive_iff.1 h1, hev⟩

/-- **C05.**  A store either fails for lack of memory and changes nothing, or does exactly what its options
ask for (`wanted`), changes nothing when refused, and otherwise leaves the new entry under the key and every
other key alone (but for the eviction of C09). -/
theorem store_does_what_is_asked {c : Ctx} (hv : c.Valid) {n : Nat} (hn : 0 < n) {mem : Nat → Mem} {now : Int}
    {key val : Bytes} {o : StoreOpts} {shs : Shards} {r : CRes} (h : Reach c n shs)
    (hok : OpOk mem now (.store key val o)) (hr : exec c n mem now (.store key val o) shs = .val r)
    (hnw : NoWrap n r.shs) :
    ∃ req, reqExpires o now = .val req ∧
    ((r.status = .nomem ∧ view c n r.shs = view c n shs ∧ r.evs = [] ∧
      (o.lowmem = true ∧ c.noevict = true ∨ (mem (shardIdx c n key)).tbl = false)) ∨
    StoreDone c n now key val o req shs r) := by
  obtain ⟨⟨req, hreq⟩, hm⟩ := hok
  exact ⟨req, hreq, store_done hv hn h hreq (hm _) hr hnw⟩

/-- **C05.**  NX (without CAS) on a key with a live entry changes nothing; XX or CAS on a key without one
stores nothing; CAS with another token changes nothing; a veto changes nothing. -/
theorem conditional_store_keeps_partial {c : Ctx} (hv : c.Valid) {n : Nat} (hn : 0 < n) {mem : Nat → Mem} {now : Int}
    {key val : Bytes} {o : StoreOpts} {shs : Shards} {r : CRes} (h : Reach c n shs)
    (hok : OpOk mem now (.store key val o)) (hr : exec c n mem now (.store key val o) shs = .val r)
    (hnw : NoWrap n r.shs) :
    (∀ e, liveView c n shs now key = some e →
      (o.nx = true ∧ o.casop = false ∨ o.casop = true ∧ o.cas ≠ e.cas ∨ ∃ f, o.entry = some f ∧ f e = false) →
      r.status ∈ [.found, .canceled, .nomem] ∧ view c n r.shs = view c n shs ∧ r.evs = []) ∧
    (liveView c n shs now key = none → o.xx = true ∨ o.casop = true →
      r.status ∈ [.notfound, .nomem] ∧ liveView c n r.shs now key = none ∧
      ∀ k, k ≠ key → view c n r.shs k = view c n shs k) := by
  obtain ⟨req, _, h1 | h1⟩ := store_does_what_is_asked hv hn h hok hr hnw
  · obtain ⟨h1, h2, h3, _⟩ := h1
    refine ⟨fun e _ _ => ⟨by simp [h1], h2, h3⟩, fun hl _ => ⟨by simp [h1], ?_, fun k _ => by rw [h2]⟩⟩
    unfold liveView at hl ⊢
    rw [h2]; exact hl
  · constructor
    · intro e he hc
      have hs : r.status = .found ∨ r.status = .canceled := by
        rw [h1.status, he]
        unfold wanted
        by_cases h2 : o.casop = true ∧ (c.usecas = false ∨ o.cas ≠ e.cas)
        · left; simp only [if_pos h2]
        · simp only [if_neg h2]
          by_cases h3 : o.casop = false ∧ o.nx = true
          · left; simp only [if_pos h3]
          · simp only [if_neg h3]
            by_cases h4 : ∃ f, o.entry = some f ∧ f e = false
            · right; simp only [if_pos h4]
            · exfalso
              rcases hc with ⟨h5, h6⟩ | ⟨h5, h6⟩ | h5
              · exact h3 ⟨h6, h5⟩
              · exact h2 ⟨h5, Or.inr h6⟩
              · exact h4 h5
      obtain ⟨h2, h3⟩ := h1.kept hs
      refine ⟨?_, h2, h3⟩
      rcases hs with hs | hs <;> simp [hs]
    · intro hl hx
      have hs : r.status = .notfound := by
        rw [h1.status, hl]
        unfold wanted
        simp only [if_pos hx]
      have h2 := h1.absent hs
      refine ⟨by simp [hs], ?_, ?_⟩
      · unfold liveView; rw [h2, update_self]; rfl
      · intro k hk; rw [h2, update_of_ne hk]

/-! ### C07 -/

theorem cont_of_rep {s t : Multiset Ent} {f : Bytes → Option Ent} (hs : Rep s f) (ht : Rep t f)
    (ns : (s.map Ent.key).Nodup) (nt : (t.map Ent.key).Nodup) : s = t := by
  refine (Multiset.Nodup.ext (Multiset.Nodup.of_map _ ns) (Multiset.Nodup.of_map _ nt)).2 ?_
  intro e
  constructor
  · intro he; exact ((ht _ _).1 ((hs e.key e).2 ⟨he, rfl⟩)).1
  · intro he; exact ((hs _ _).1 ((ht e.key e).2 ⟨he, rfl⟩)).1

/-- Shards with the same view hold the same number of entries. -/
theorem count_of_view {c : Ctx} {s t : Sh} (hs : Map.Inv c s.map) (ht : Map.Inv c t.map) (os : s.map.ovf = false)
    (ot : t.map.ovf = false) (h : shView s = shView t) : s.map.count = t.map.count := by
  rw [hs.cnt os, ht.cnt ot, cont_of_rep (shView_rep hs os) (h ▸ shView_rep ht ot) (hs.nodup os) (ht.nodup ot)]

/-- **C07.**  A delete vetoed by its callback completes whatever the allocator does and puts everything back:
same contents (values, tokens, access times), same counts, no notification.  (An assertion can fail only
after a probe distance has wrapped, C10.) -/
theorem delete_veto_restores {c : Ctx} (hv : c.Valid) {n : Nat} (hn : 0 < n) (mem : Nat → Mem) {now : Int}
    {key : Bytes} {f : Ent → Bool} {shs : Shards} (h : Reach c n shs) {e : Ent} (he : liveView c n shs now key = some e)
    (hf : f e = false) (hnw : NoWrap n shs) :
    (∃ r, exec c n mem now (.delete key (some f)) shs = .val r ∧ (NoWrap n r.shs → r.status = .canceled ∧
      r.evs = [] ∧ view c n r.shs = view c n shs ∧ ∀ i, i < n → (r.shs i).map.count = (shs i).map.count)) ∨
    exec c n mem now (.delete key (some f)) shs = .abort true := by
  have hi := shardIdx_lt c hn key
  have hinv := h.allInv hv hn _ hi
  unfold exec onKey
  simp only []
  rcases deleteOp_spec hv (mem (shardIdx c n key)) now key (some f) hinv with ⟨q, hq, hiq, hspec⟩ | ha
  swap
  · right; rw [ha]; rfl
  left
  rw [hq]
  refine ⟨_, rfl, ?_⟩
  intro hnr
  have hoq : q.sh.map.ovf = false := hnr.self hi
  obtain ⟨ho, hspec⟩ := hspec hoq
  obtain ⟨h1, h2, h3, h4⟩ := hspec ⟨shView (shs (shardIdx c n key)), _⟩ ⟨shView_rep hinv ho, rfl⟩
  have hvk : shView (shs (shardIdx c n key)) key = some e ∧ e.alive now = true := by
    unfold liveView at he
    obtain ⟨h5, h6⟩ := Option.filter_eq_some_iff.1 he
    refine ⟨h5, ?_⟩
    unfold Ent.alive aliveExp
    simpa using h6
  have hq' : pDelete now key (some f) ⟨shView (shs (shardIdx c n key)), (shs (shardIdx c n key)).cas⟩ =
      ⟨⟨shView (shs (shardIdx c n key)), (shs (shardIdx c n key)).cas⟩, .canceled, [], [e]⟩ := by
    unfold pDelete
    simp [hvk.1, hvk.2, refuses, hf, shown]
  rw [hq'] at h1 h2 h3 h4
  have hvw : shView q.sh = shView (shs (shardIdx c n key)) := rep_shView hiq hoq h1.1
  refine ⟨h2, h3, view_same hvw, ?_⟩
  intro i hii
  by_cases hx : i = shardIdx c n key
  · subst hx
    simp only [update_self]
    exact count_of_view hiq hinv hoq ho hvw
  · simp only []
    rw [update_of_ne hx]

/-- **C07.**  A store that is refused (NX, other CAS token, veto) completes whatever the allocator does after
the first insertion, and puts everything back. -/
theorem refused_store_restores {c : Ctx} (hv : c.Valid) {n : Nat} (hn : 0 < n) {mem : Nat → Mem} {now : Int}
    {key val : Bytes} {o : StoreOpts} {shs : Shards} (h : Reach c n shs)
    (hok : OpOk mem now (.store key val o)) {e : Ent} (he : liveView c n shs now key = some e)
    (hw : wanted c.usecas o (some e) ≠ .replaced) :
    (∃ r, exec c n mem now (.store key val o) shs = .val r ∧ (NoWrap n r.shs →
      r.status ∈ [.found, .canceled, .nomem] ∧ ((mem (shardIdx c n key)).tbl = true → o.lowmem = false →
        r.status = wanted c.usecas o (some e)) ∧
      r.evs = [] ∧ view c n r.shs = view c n shs ∧ ∀ i, i < n → (r.shs i).map.count = (shs i).map.count)) ∨
    exec c n mem now (.store key val o) shs = .abort true := by
  rcases exec_eff hv hn mem now (.store key val o) (h.allInv hv hn) hok with ⟨r, hr, hA, hE⟩ | ha
  swap
  · exact Or.inr ha
  left
  refine ⟨r, hr, ?_⟩
  intro hnw
  have hnw0 := (hE hnw).1
  have hcount : view c n r.shs = view c n shs → ∀ i, i < n → (r.shs i).map.count = (shs i).map.count := by
    intro hvw i hi
    have hpl' := (Reach.call h hok hr).placed hv hn hnw i hi
    have hpl := h.placed hv hn hnw0 i hi
    refine count_of_view (hA i hi) (h.allInv hv hn i hi) (hnw i hi) (hnw0 i hi) ?_
    funext k
    by_cases hk : shardIdx c n k = i
    · have := congrFun hvw k
      unfold view at this
      rwa [hk] at this
    · have h1 : shView (r.shs i) k = none := by
        cases hx : shView (r.shs i) k with
        | none => rfl
        | some x => exact absurd (hpl' k x hx) hk
      have h2 : shView (shs i) k = none := by
        cases hx : shView (shs i) k with
        | none => rfl
        | some x => exact absurd (hpl k x hx) hk
      rw [h1, h2]
  obtain ⟨req, _, h1 | h1⟩ := store_does_what_is_asked hv hn h hok hr hnw
  · obtain ⟨h1, h2, h3, h4⟩ := h1
    refine ⟨by simp [h1], ?_, h3, h2, hcount h2⟩
    intro h5 h6
    rcases h4 with h4 | h4
    · rw [h6] at h4; simp at h4
    · rw [h5] at h4; simp at h4
  · have hst := h1.status
    rw [he] at hst
    have hs : r.status = .found ∨ r.status = .canceled := by
      rw [hst]
      unfold wanted at hw ⊢
      simp only [] at hw ⊢
      split
      · exact Or.inl rfl
      · rename_i h2
        split
        · exact Or.inl rfl
        · rename_i h3
          split
          · exact Or.inr rfl
          · rename_i h4
            simp only [if_neg h2, if_neg h3, if_neg h4] at hw
            exact absurd rfl hw
    obtain ⟨h2, h3⟩ := h1.kept hs
    refine ⟨?_, fun _ _ => hst, h3, h2, hcount h2⟩
    rcases hs with hs | hs <;> simp [hs]

/-! ### C08 -/

/-- **C08.**  In every reachable state each shard has a power of two of at least 64 buckets, at most
`lf` percent of them used, and a free bucket; and every call ends (no loop runs for ever). -/
theorem probing_terminates {c : Ctx} (hv : c.Valid) {n : Nat} (hn : 0 < n) {shs : Shards} (h : Reach c n shs) :
    (∀ i, i < n → (∃ k, (shs i).map.nbuckets = 2 ^ k) ∧ 64 ≤ (shs i).map.nbuckets ∧
      (shs i).map.count * 100 ≤ c.lf * (shs i).map.nbuckets ∧ (shs i).map.count < (shs i).map.nbuckets ∧
      ∃ j, j < (shs i).map.nbuckets ∧ ((shs i).map.buckets j).dib = 0) ∧
    (∀ mem now op, OpOk mem now op → exec c n mem now op shs ≠ .hang ∧ exec c n mem now op shs ≠ .ub) := by
  constructor
  · intro i hi
    have hv' := h.allInv hv hn i hi
    have hc := hv'.load
    rw [hv'.grow] at hc
    have hg := growAt_lt hv hv'.ge
    refine ⟨hv'.pow, hv'.ge, ?_, by omega, ?_⟩
    · unfold growAt at hc
      have := Nat.div_mul_le_self ((shs i).map.nbuckets * c.lf) 100
      rw [Nat.mul_comm c.lf]
      omega
    · obtain ⟨t, _, hd⟩ := exists_empty_from (hv'.lt hv) 0
      have hpos : 0 < (shs i).map.nbuckets := by have := hv'.ge; omega
      exact ⟨_, Nat.mod_lt _ hpos, hd⟩
  · intro mem now op hok
    rcases exec_eff hv hn mem now op (h.allInv hv hn) hok with ⟨r, hr, _⟩ | ha
    · rw [hr]; simp
    · rw [ha]; simp

/-! ### C09 -/

/-- **C09.**  A store removes no other key unless it inserts a new key under low memory; then it removes at
most one, which is not the stored key, and reports it as evicted if it was live and as expired if not. -/
theorem eviction_at_most_one {c : Ctx} (hv : c.Valid) {n : Nat} (hn : 0 < n) {mem : Nat → Mem} {now : Int}
    {key val : Bytes} {o : StoreOpts} {shs : Shards} {r : CRes} (h : Reach c n shs)
    (hok : OpOk mem now (.store key val o)) (hr : exec c n mem now (.store key val o) shs = .val r)
    (hnw : NoWrap n r.shs) :
    (∀ k, k ≠ key → view c n r.shs k = view c n shs k) ∨
    (o.lowmem = true ∧ c.noevict = false ∧ r.status = .inserted ∧ view c n shs key = none ∧
      (∃ e, view c n r.shs key = some e ∧ e.value = val) ∧
      ∃ v, v.key ≠ key ∧ view c n shs v.key = some v ∧ view c n r.shs v.key = none ∧
        (∀ k, k ≠ key → k ≠ v.key → view c n r.shs k = view c n shs k) ∧
        ∃ e, r.evs = [if v.expires = 0 ∨ now < v.expires then .lowmem v else .expired v, .inserted e]) := by
  obtain ⟨req, _, h1 | h1⟩ := store_does_what_is_asked hv hn h hok hr hnw
  · left
    intro k _; rw [h1.2.1]
  · have hst := h1.status
    have hcases : r.status = .found ∨ r.status = .canceled ∨ r.status = .notfound ∨ r.status = .replaced ∨ r.status = .inserted := by
      rw [hst]
      unfold wanted
      split
      · split
        · simp
        · split
          · simp
          · split <;> simp
      · split <;> simp
    rcases hcases with hs | hs | hs | hs | hs
    · left; intro k _; rw [(h1.kept (Or.inl hs)).1]
    · left; intro k _; rw [(h1.kept (Or.inr hs)).1]
    · left; intro k hk; rw [h1.absent hs, update_of_ne hk]
    · left
      intro k hk
      obtain ⟨e, _, h2⟩ := h1.replaced hs
      rw [h2, update_of_ne hk]
    · obtain ⟨e, hne, h2 | ⟨hlow, hkn, v, hvk, hvv, hvr, hev⟩⟩ := h1.inserted hs
      · left; intro k hk; rw [h2, update_of_ne hk]
      · right
        have hnoev : c.noevict = false := by
          by_contra hc
          obtain ⟨q, hq, rfl⟩ := onKey_val hr
          have : storeNomem c (mem (shardIdx c n key)) o (shs (shardIdx c n key)) = true := by
            have hc' : c.noevict = true := by simpa using hc
            unfold storeNomem; simp [hlow, hc']
          obtain ⟨req', hreq'⟩ := hok.1
          rcases storeOp_spec hv (mem (shardIdx c n key)) now key val o (h.allInv hv hn _ (shardIdx_lt c hn key)) hreq' (hok.2 _) with
            ⟨q1, hq1, _, hnom, _⟩ | ha
          · rw [hq] at hq1
            simp only [Out.val.injEq] at hq1
            subst hq1
            have := hnom this
            simp only [] at hs
            rw [hs] at this
            simp at this
          · rw [hq] at ha; simp at ha
        refine ⟨hlow, hnoev, hs, hkn, ⟨e, ?_, hne.isVal⟩, v, hvk, hvv, ?_, ?_, e, ?_⟩
        · rw [hvr, update_of_ne (Ne.symm hvk), update_self]
        · rw [hvr, update_self]
        · intro k h3 h4
          rw [hvr, update_of_ne h4, update_of_ne h3]
        · rcases hev with ⟨h3, h4⟩ | ⟨h3, h4⟩
          · unfold LiveAt at h3; rw [if_pos h3]; exact h4
          · unfold LiveAt at h3; rw [if_neg h3]; exact h4

/-- The entries of the table in the order of the buckets after bucket `hash`, without those of that hash. -/
def others (m : Tbl) (hash : Nat) : List Ent :=
  (((List.range' 1 (m.nbuckets - 1)).map fun i => m.buckets ((i + hash) % m.nbuckets)).filter
    fun b => b.dib ≠ 0 ∧ b.hash ≠ hash).map Bucket.ent

instance (e : Ent) (t : Int) : Decidable (LiveAt e t) := by unfold LiveAt; infer_instance

/-- Who has to go: of the first two, an expired one if there is, otherwise the one not used for longer. -/
def victim (now : Int) : List Ent → Option Ent
  | [] => none
  | [a] => some a
  | a :: b :: _ =>
    if ¬ LiveAt a now then some a else if ¬ LiveAt b now then some b else if a.time < b.time then some a else some b

/-- The search over a list. -/
def pickList (now : Int) : List Ent → List Ent → Pick
  | [], acc => .cands acc
  | e :: l, acc =>
    if acc.length < 2 then (if !e.alive now then .expired e else pickList now l (acc ++ [e])) else .cands acc

theorem pickLoop_list {c : Ctx} {m : Tbl} (h : Map.Inv c m) (hash : Nat) (now : Int) (rem i : Nat) (acc : List Ent) :
    pickLoop m hash now rem i acc = pickList now ((((List.range' i rem).map fun i => m.buckets ((i + hash) % m.nbuckets)).filter
      fun b => b.dib ≠ 0 ∧ b.hash ≠ hash).map Bucket.ent) acc := by
  obtain ⟨k, hk⟩ := h.pow
  induction rem generalizing i acc with
  | zero => rfl
  | succ rem ih =>
    unfold pickLoop
    rw [and_mask hk, List.range'_succ, List.map_cons]
    by_cases hl : acc.length < 2
    · simp only [if_pos hl]
      by_cases hc : (m.buckets ((i + hash) % m.nbuckets)).dib = 0 ∨ (m.buckets ((i + hash) % m.nbuckets)).hash = hash
      · rw [if_pos hc, List.filter_cons_of_neg (by simpa [or_iff_not_imp_left] using hc)]
        exact ih _ _
      · rw [if_neg hc, List.filter_cons_of_pos (by simpa using hc), List.map_cons]
        unfold pickList
        rw [if_pos hl]
        split
        · rfl
        · exact ih _ _
    · rw [if_neg hl]
      generalize List.map Bucket.ent _ = l
      cases l with
      | nil => rfl
      | cons e l => unfold pickList; rw [if_neg hl]

/-- **C09.**  Which entry is evicted: none if there is no candidate, never a live one when the first candidate
is expired, and otherwise the less recently used of two. -/
theorem eviction_choice {c : Ctx} {m m' : Tbl} (h : Map.Inv c m) (hash : Nat) (now : Int) {evs : List Ev}
    (hr : autoEvict c m hash now = .val (m', evs)) :
    evs = (victim now (others m hash)).toList.map fun v => if LiveAt v now then .lowmem v else .expired v := by
  unfold autoEvict at hr
  rw [pickLoop_list h hash now] at hr
  change (match pickList now (others m hash) [] with
    | .expired e => (evictEntry c m e).bind fun m' => .val (m', [Ev.expired e])
    | .cands [e] => (evictEntry c m e).bind fun m' => .val (m', [Ev.lowmem e])
    | .cands [e0, e1] => (evictEntry c m (if e0.time < e1.time then e0 else e1)).bind fun m' =>
        .val (m', [Ev.lowmem (if e0.time < e1.time then e0 else e1)])
    | .cands _ => (.val (m, []) : Out (Tbl × List Ev))) = .val (m', evs) at hr
  have fin : ∀ e ev, ((evictEntry c m e).bind fun m' => .val (m', [ev]) : Out (Tbl × List Ev)) = .val (m', evs) → evs = [ev] := by
    intro e ev hx
    obtain ⟨a, _, h2⟩ := out_bind_val hx
    simp only [Out.val.injEq, Prod.mk.injEq] at h2
    exact h2.2.symm
  have hal : ∀ e : Ent, (!e.alive now) = true ↔ ¬ LiveAt e now := by
    intro e
    rw [← alive_iff]; simp
  match ho : others m hash with
  | [] =>
    rw [ho] at hr
    simp only [pickList, Out.val.injEq, Prod.mk.injEq] at hr
    simp [victim, hr.2]
  | [a] =>
    rw [ho] at hr
    by_cases ha : LiveAt a now
    · simp only [pickList, List.length_nil, if_neg (fun x => (hal a).1 x ha), List.nil_append] at hr
      have := fin _ _ hr
      simp [victim, ha, this]
    · simp only [pickList, List.length_nil, if_pos ((hal a).2 ha)] at hr
      have := fin _ _ hr
      simp [victim, ha, this]
  | a :: b :: l =>
    rw [ho] at hr
    by_cases ha : LiveAt a now
    · by_cases hb : LiveAt b now
      · have hp : pickList now (a :: b :: l) [] = .cands [a, b] := by
          cases l <;> simp [pickList, (alive_iff.2 ha), (alive_iff.2 hb)]
        rw [hp] at hr
        have := fin _ _ hr
        by_cases ht : a.time < b.time
        · rw [if_pos ht] at this
          simp [victim, ha, hb, ht, this]
        · rw [if_neg ht] at this
          simp [victim, ha, hb, ht, this]
      · have hp : pickList now (a :: b :: l) [] = .expired b := by
          have : b.alive now = false := by simpa [← alive_iff] using hb
          simp [pickList, (alive_iff.2 ha), this]
        rw [hp] at hr
        have := fin _ _ hr
        simp [victim, ha, hb, this]
    · have hp : pickList now (a :: b :: l) [] = .expired a := by
        have : a.alive now = false := by simpa [← alive_iff] using ha
        simp [pickList, this]
      rw [hp] at hr
      have := fin _ _ hr
      simp [victim, ha, this]

/-! ### Concrete cases -/

namespace Example

/-- Options with given switches. -/
def cOpts (casop : Bool) (cas : Nat) (nx xx lowmem : Bool) (cb : Option (Ent → Bool)) : StoreOpts :=
  ⟨0, 0, cas, 0, false, casop, nx, xx, lowmem, cb⟩

/-- Two keys stored; then NX on one, and a store under low memory. -/
def cond (last : Op) : List Call :=
  [⟨.store [1] [10] (sOpts 0), okMem, 100⟩, ⟨.store [3] [30] (sOpts 5), okMem, 101⟩, ⟨last, okMem, 103⟩]

theorem cond_ok (last : Op) (h : OpOk okMem 103 last) : ∀ x ∈ cond last, OpOk x.mem x.now x.op := by
  intro x hx
  unfold cond at hx
  simp only [List.mem_cons, List.not_mem_nil, or_false] at hx
  rcases hx with rfl | rfl | rfl
  · exact ⟨⟨0, by decide⟩, fun _ => rfl⟩
  · exact ⟨⟨106, by decide⟩, fun _ => rfl⟩
  · exact h

/-- A hash that is the first byte of the key. -/
def ctx2 : Ctx := ⟨true, false, false, true, 75, fun k => (k.headD 0).toNat⟩

/-- Status, notifications and wrap-freedom after the three calls. -/
def condOut (c : Ctx) (last : Op) : Out (Bool × Option Status × List (String × Bytes × Bytes)) :=
  (runCalls c 1 (cond last) (newCache c)).bind fun (shs, rs) =>
    .val (noWrapB 1 shs, (rs.map CRes.status).getLast?, (rs.drop 2).flatMap fun r => r.evs.map evText)

set_option synthInstance.maxSize 1000 in
example : [condOut ctx (.store [1] [11] (cOpts false 0 true false false none)),
    condOut ctx (.store [4] [11] (cOpts false 0 false true false none)),
    condOut ctx (.store [1] [11] (cOpts true 9 false false false none)),
    condOut ctx (.store [1] [11] (cOpts true 2 false false false none)),
    condOut ctx (.store [1] [11] (cOpts false 0 false false false (some fun _ => false))),
    condOut ctx (.delete [1] (some fun _ => false))] =
    [.val (true, some .found, []), .val (true, some .notfound, []), .val (true, some .found, []),
      .val (true, some .replaced, [("replaced", [11], [10])]), .val (true, some .canceled, []),
      .val (true, some .canceled, [])] := by decide +kernel

set_option synthInstance.maxSize 1000 in
/-- Under low memory the least recently used of two goes. -/
example : condOut ctx2 (.store [2] [20] (cOpts false 0 false false true none)) =
    .val (true, some .inserted, [("lowmem", [1], [10]), ("inserted", [2], [20])]) := by decide +kernel

end Example

/-- **C05, the exception.**  NX is ignored when a CAS token is given too: here the key holds a live entry, the
store asks for NX, and the entry is replaced. -/
theorem nx_with_cas_replaces_live_entry : ∃ shs r, Reach Example.ctx 1 shs ∧
    OpOk Example.okMem 103 (.store [1] [11] (Example.cOpts true 2 true false false none)) ∧
    (∃ e, liveView Example.ctx 1 shs 103 [1] = some e ∧ e.value = [10]) ∧
    exec Example.ctx 1 Example.okMem 103 (.store [1] [11] (Example.cOpts true 2 true false false none)) shs = .val r ∧
    NoWrap 1 r.shs ∧ r.status = .replaced ∧ ∃ e, view Example.ctx 1 r.shs [1] = some e ∧ e.value = [11] := by
  have hok : OpOk Example.okMem 103 (.store [1] [11] (Example.cOpts true 2 true false false none)) :=
    ⟨⟨0, by decide⟩, fun _ => rfl⟩
  obtain ⟨⟨shs, rs⟩, hr, h1⟩ := Out.of_test (o := runCalls Example.ctx 1
      ((Example.cond (.store [1] [11] (Example.cOpts true 2 true false false none))).take 2) (newCache Example.ctx))
    (p := fun x => (liveView Example.ctx 1 x.1 103 [1]).map Ent.value = some [10] ∧
      ((exec Example.ctx 1 Example.okMem 103 (.store [1] [11] (Example.cOpts true 2 true false false none)) x.1).test fun r =>
        noWrapB 1 r.shs = true ∧ r.status = .replaced ∧ (view Example.ctx 1 r.shs [1]).map Ent.value = some [11]) = true)
    (by decide +kernel)
  obtain ⟨r, hx, h2⟩ := Out.of_test h1.2
  refine ⟨shs, r, runCalls_reach .new (fun x hx => Example.cond_ok _ hok x (List.mem_of_mem_take hx)) hr, hok, ?_, hx,
    noWrapB_iff.1 h2.1, h2.2.1, ?_⟩
  · obtain ⟨e, h3, h4⟩ := Option.map_eq_some_iff.1 h1.1; exact ⟨e, h3, h4⟩
  · obtain ⟨e, h3, h4⟩ := Option.map_eq_some_iff.1 h2.2.2; exact ⟨e, h3, h4⟩

end Verif.Cache
