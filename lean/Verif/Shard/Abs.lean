import Verif.Map.Shift
import Verif.Num.Props
import Verif.Shard.Model

/-!
Each shard operation as an operation on a finite map from keys to entries.  This is the internal
stepping stone between the table and the user-level specifications in `Verif.Shard.Props*`; the map
here still holds expired entries.
-/

namespace Verif.Shard

open Verif.Map Function

/-- A multiset of entries read as a partial function from keys. -/
def Rep (s : Multiset Ent) (f : Bytes → Option Ent) : Prop :=
  ∀ k e, f k = some e ↔ e ∈ s ∧ e.key = k

theorem rep_insert {s s' : Multiset Ent} {f : Bytes → Option Ent} {e : Ent} {old : Option Ent}
    (hr : Rep s f) (hi : InsEffect e old s s') (hnd : (s'.map Ent.key).Nodup) :
    old = f e.key ∧ Rep s' (update f e.key (some e)) := by
  cases old with
  | none =>
    obtain ⟨h1, h2⟩ := hi
    constructor
    · cases hf : f e.key with
      | none => rfl
      | some x => exact absurd ((hr _ _).1 hf).2 (h1 x ((hr _ _).1 hf).1)
    · intro k x
      rw [h2]
      simp only [Multiset.mem_add, Multiset.mem_singleton]
      by_cases hk : k = e.key
      · subst hk
        rw [update_self]
        constructor
        · intro h; simp at h; subst h; exact ⟨Or.inr rfl, rfl⟩
        · rintro ⟨h | h, hk⟩
          · exact absurd hk (h1 x h)
          · rw [h]
      · rw [update_of_ne hk, hr]
        constructor
        · rintro ⟨h, hx⟩; exact ⟨Or.inl h, hx⟩
        · rintro ⟨h | h, hx⟩
          · exact ⟨h, hx⟩
          · subst h; exact absurd hx.symm hk
  | some o =>
    obtain ⟨h1, h2, h3⟩ := hi
    constructor
    · rw [← h2]; exact ((hr o.key o).2 ⟨h1, rfl⟩).symm
    · have he : e ∈ s' := by
        have : e ∈ s' + {o} := by rw [h3]; simp
        rcases Multiset.mem_add.1 this with h | h
        · exact h
        · have heo : e = o := by simpa using h
          rw [heo] at h3
          rw [add_right_cancel h3]
          rw [heo]; exact h1
      have hother : ∀ x, x.key ≠ e.key → (x ∈ s' ↔ x ∈ s) := by
        intro x hx
        have hxo : x ≠ o := fun h => hx (by rw [h, h2])
        have hxe : x ≠ e := fun h => hx (by rw [h])
        have := congrArg (fun m => x ∈ m) h3
        simpa [hxo, hxe] using this
      intro k x
      by_cases hk : k = e.key
      · subst hk
        rw [update_self]
        constructor
        · intro h; simp at h; subst h; exact ⟨he, rfl⟩
        · rintro ⟨h, hxk⟩
          have := Multiset.inj_on_of_nodup_map hnd x h e he hxk
          rw [this]
      · rw [update_of_ne hk, hr]
        constructor
        · rintro ⟨h, hx⟩; exact ⟨(hother x (by rw [hx]; exact hk)).2 h, hx⟩
        · rintro ⟨h, hx⟩; exact ⟨(hother x (by rw [hx]; exact hk)).1 h, hx⟩

theorem rep_delete {s s' : Multiset Ent} {f : Bytes → Option Ent} {e : Ent}
    (hr : Rep s f) (hi : s' + {e} = s) (hnd : (s.map Ent.key).Nodup) :
    f e.key = some e ∧ Rep s' (update f e.key none) := by
  have hmem : e ∈ s := by rw [← hi]; simp
  refine ⟨(hr _ _).2 ⟨hmem, rfl⟩, ?_⟩
  rw [← hi, Multiset.map_add, Multiset.nodup_add] at hnd
  have hdis : ∀ a, a ∈ Multiset.map Ent.key s' → a ∉ Multiset.map Ent.key {e} :=
    fun a => Multiset.disjoint_left.1 hnd.2.2
  intro k x
  by_cases hk : k = e.key
  · subst hk
    rw [update_self]
    constructor
    · simp
    · rintro ⟨h, hxk⟩
      exact absurd (by simp [hxk]) (hdis _ (Multiset.mem_map_of_mem Ent.key h))
  · rw [update_of_ne hk, hr, ← hi]
    simp only [Multiset.mem_add, Multiset.mem_singleton]
    constructor
    · rintro ⟨h | h, hx⟩
      · exact ⟨h, hx⟩
      · subst h; exact absurd hx.symm hk
    · rintro ⟨h, hx⟩; exact ⟨Or.inl h, hx⟩

theorem rep_none {s : Multiset Ent} {f : Bytes → Option Ent} {k : Bytes} (hr : Rep s f)
    (h : ∀ x ∈ s, x.key ≠ k) : f k = none := by
  cases hf : f k with
  | none => rfl
  | some x => exact absurd ((hr _ _).1 hf).2 (h x ((hr _ _).1 hf).1)

theorem rep_exists {s : Multiset Ent} (hnd : (s.map Ent.key).Nodup) : ∃ f, Rep s f := by
  classical
  refine ⟨fun k => if h : ∃ e, e ∈ s ∧ e.key = k then some h.choose else none, ?_⟩
  intro k e
  by_cases h : ∃ e, e ∈ s ∧ e.key = k
  · simp only [h, dif_pos]
    constructor
    · intro he; simp at he; rw [← he]; exact h.choose_spec
    · rintro ⟨h1, h2⟩
      congr 1
      exact Multiset.inj_on_of_nodup_map hnd _ h.choose_spec.1 _ h1 (h.choose_spec.2.trans h2.symm)
  · simp only [h, dif_neg, not_false_iff]
    constructor
    · simp
    · rintro h2; exact absurd ⟨e, h2⟩ h

theorem rep_unique {s : Multiset Ent} {f g : Bytes → Option Ent} (hf : Rep s f) (hg : Rep s g) : f = g := by
  funext k
  cases h : f k with
  | none =>
    cases h2 : g k with
    | none => rfl
    | some x => rw [(hf _ _).2 ((hg _ _).1 h2)] at h; simp at h
  | some x => exact ((hg _ _).2 ((hf _ _).1 h)).symm

/-! ### `setEntry` -/

theorem setEntry_spec {c : Ctx} {m : Tbl} {i : Nat} {e : Ent} (h : Inv c m) (hi : i < m.nbuckets)
    (hd : (m.buckets i).dib ≠ 0) (hk : e.key = (m.buckets i).ent.key) :
    Inv c (setEntry m i e) ∧ InsEffect e (some (m.buckets i).ent) m.cont (setEntry m i e).cont := by
  have hc := cont_update m.buckets hi { m.buckets i with ent := e }
  rw [bc, if_neg hd, bc, if_neg hd] at hc
  have heff : InsEffect e (some (m.buckets i).ent) m.cont (setEntry m i e).cont :=
    ⟨mem_cont.2 ⟨i, hi, hd, rfl⟩, hk.symm, hc⟩
  have hcard : (setEntry m i e).cont.card = m.cont.card := by
    have := congrArg Multiset.card heff.2.2
    simpa using this
  refine ⟨?_, heff⟩
  constructor
  · exact h.pow
  · exact h.cap
  · exact h.ge
  · exact h.grow
  · exact h.shrink
  · exact h.load
  · rw [hcard]; exact h.card
  · intro ho
    have hw := h.wf ho
    have hbk : ∀ j, ((setEntry m i e).buckets j).dib = (m.buckets j).dib ∧
        ((setEntry m i e).buckets j).hash = (m.buckets j).hash ∧
        ((setEntry m i e).buckets j).ent.key = (m.buckets j).ent.key := by
      intro j
      unfold setEntry
      simp only []
      by_cases hj : j = i
      · subst hj; rw [update_self]; exact ⟨rfl, rfl, hk⟩
      · rw [update_of_ne hj]; exact ⟨rfl, rfl, rfl⟩
    constructor
    · intro j; unfold D; rw [(hbk _).1, (hbk _).1]; exact hw.step j
    · intro j hj; rw [(hbk j).1, (hbk j).2.1]; exact hw.home j hj
    · intro j hj; rw [(hbk j).1, (hbk j).2.1, (hbk j).2.2]; exact hw.hash j hj
    · intro j hj; rw [(hbk j).1]; exact hw.byte j hj
  · intro ho; rw [hcard]; exact h.cnt ho
  · intro ho
    have h3 := congrArg (Multiset.map Ent.key) heff.2.2
    rw [Multiset.map_add, Multiset.map_add, Multiset.map_singleton, Multiset.map_singleton, heff.2.1] at h3
    rw [add_right_cancel h3]; exact h.nodup ho

/-! ### Abstract operations -/

/-- Abstract shard: entries by key, and the CAS counter. -/
structure PS where
  f : Bytes → Option Ent
  cas : Nat

/-- Result of an abstract operation. -/
structure PR where
  ps : PS
  status : Status
  evs : List Ev
  seen : List Ent

/-- `loadop` on the abstract shard. -/
def pLoad (c : Ctx) (mem : Mem) (now : Int) (key : Bytes) (o : LoadOpts) (p : PS) : PR :=
  match p.f key with
  | none => ⟨p, .notfound, [], []⟩
  | some e =>
    if e.alive now then
      let e1 := if o.notouch then e else { e with time := now }
      let p1 : PS := ⟨update p.f key (some e1), p.cas⟩
      match o.entry with
      | none => ⟨p1, .found, [], []⟩
      | some cb =>
        match cb e1 with
        | none => ⟨p1, .found, [], [e1]⟩
        | some u =>
          if mem.ent then
            let e2 := mkEnt c key u.value u.expires u.flags (p.cas + 1) now
            ⟨⟨update p.f key (some e2), p.cas + 1⟩, .found, [.replaced e2 e1], [e1]⟩
          else ⟨⟨p1.f, p.cas + 1⟩, .nomem, [], [e1]⟩
    else ⟨⟨update p.f key none, p.cas⟩, .notfound, [.expired e], []⟩

/-- Shard invariant. -/
structure SInv (c : Ctx) (s : Sh) : Prop where
  inv : Inv c s.map

/-- A shard represents an abstract shard (only claimed while no distance byte has wrapped). -/
def SRep (s : Sh) (p : PS) : Prop := Rep s.map.cont p.f ∧ s.cas = p.cas

theorem loadOp_spec {c : Ctx} (hv : c.Valid) (mem : Mem) (now : Int) (key : Bytes) (o : LoadOpts) {s : Sh}
    (h : Inv c s.map) :
    ∃ r, loadOp c mem now key o s = .val r ∧ Inv c r.sh.map ∧ r.sh.map.ovf = s.map.ovf ∧
      (s.map.ovf = false → ∀ p, SRep s p →
        let q := pLoad c mem now key o p
        SRep r.sh q.ps ∧ r.status = q.status ∧ r.evs = q.evs ∧ r.seen = q.seen) := by
  obtain ⟨g, hg, hs, hn⟩ := getBucket_spec hv h key
  unfold loadOp
  rw [hg]
  simp only [ofLoop, Out.bind]
  cases g with
  | none =>
    refine ⟨_, rfl, h, rfl, ?_⟩
    intro ho p hp
    have := rep_none hp.1 (hn rfl ho)
    unfold pLoad
    rw [this]
    exact ⟨hp, rfl, rfl, rfl⟩
  | some i =>
    obtain ⟨hi, hd, hk⟩ := hs i rfl
    have hf : ∀ p, SRep s p → p.f key = some (s.map.buckets i).ent := by
      intro p hp
      exact (hp.1 _ _).2 ⟨mem_cont.2 ⟨i, hi, hd, rfl⟩, hk⟩
    simp only []
    by_cases ha : aliveExp (s.map.buckets i).ent.expires now = true
    · rw [ha]
      have ha' : (s.map.buckets i).ent.alive now = true := ha
      simp only [Bool.not_true, if_false, Bool.false_eq_true]
      have hset : ∀ e : Ent, e.key = key → ∀ p, SRep s p → s.map.ovf = false →
          Rep (setEntry s.map i e).cont (update p.f key (some e)) := by
        intro e he p hp ho
        obtain ⟨h1, h2⟩ := setEntry_spec h hi hd (e := e) (by rw [he, hk])
        have := (rep_insert hp.1 h2 (h1.nodup ho)).2
        rwa [he] at this
      have hinv : ∀ e : Ent, e.key = key → Inv c (setEntry s.map i e) := by
        intro e he
        exact (setEntry_spec h hi hd (e := e) (by rw [he, hk])).1
      set e1 : Ent := if o.notouch then (s.map.buckets i).ent else { (s.map.buckets i).ent with time := now } with he1
      have hk1 : e1.key = key := by
        rw [he1]; split <;> exact hk
      cases hcb : o.entry with
      | none =>
        refine ⟨_, rfl, hinv e1 hk1, rfl, ?_⟩
        intro ho p hp
        unfold pLoad
        rw [hf p hp]
        simp only [ha', if_true, hcb, ← he1]
        exact ⟨⟨hset e1 hk1 p hp ho, hp.2⟩, by simp⟩
      | some cb =>
        simp only []
        cases hu : cb e1 with
        | none =>
          refine ⟨_, rfl, hinv e1 hk1, rfl, ?_⟩
          intro ho p hp
          unfold pLoad
          rw [hf p hp]
          simp only [ha', if_true, hcb, ← he1, hu]
          exact ⟨⟨hset e1 hk1 p hp ho, hp.2⟩, by simp⟩
        | some u =>
          simp only []
          cases hmem : mem.ent with
          | false =>
            simp only [Bool.not_false, if_true]
            refine ⟨_, rfl, hinv e1 hk1, rfl, ?_⟩
            intro ho p hp
            unfold pLoad
            rw [hf p hp]
            simp only [ha', if_true, hcb, ← he1, hu, hmem, if_false, Bool.false_eq_true]
            exact ⟨⟨hset e1 hk1 p hp ho, by rw [← hp.2]⟩, by simp⟩
          | true =>
            simp only [Bool.not_true, if_false, Bool.false_eq_true]
            have hset2 : ∀ e2 : Ent, e2.key = key →
                setEntry (setEntry s.map i e1) i e2 = setEntry s.map i e2 := by
              intro e2 _
              unfold setEntry
              simp only [update_self, update_idem]
            rw [hset2 _ rfl]
            refine ⟨_, rfl, hinv _ rfl, rfl, ?_⟩
            intro ho p hp
            unfold pLoad
            rw [hf p hp]
            simp only [ha', if_true, hcb, ← he1, hu, hmem]
            rw [← hp.2]
            exact ⟨⟨hset _ rfl p hp ho, rfl⟩, by simp⟩
    · have ha2 : aliveExp (s.map.buckets i).ent.expires now = false := by simpa using ha
      have ha' : (s.map.buckets i).ent.alive now = false := ha2
      rw [ha2]
      simp only [Bool.not_false, if_true]
      obtain ⟨m', hm', hinv, hov, _, _, _, _, _, _, hcont⟩ := delbkt_spec hv h hi hd
      rw [hm']
      refine ⟨_, rfl, hinv, hov, ?_⟩
      intro ho p hp
      unfold pLoad
      rw [hf p hp]
      simp only [ha', if_false, Bool.false_eq_true]
      have := (rep_delete hp.1 (hcont ho) (h.nodup ho)).2
      rw [hk] at this
      exact ⟨⟨this, hp.2⟩, by simp⟩

/-- `deleteop` on the abstract shard. -/
def pDelete (now : Int) (key : Bytes) (cb : Option (Ent → Bool)) (p : PS) : PR :=
  match p.f key with
  | none => ⟨p, .notfound, [], []⟩
  | some e =>
    if e.alive now then
      if refuses cb e then ⟨p, .canceled, [], shown cb e⟩
      else ⟨⟨update p.f key none, p.cas⟩, .deleted, [.deleted e], shown cb e⟩
    else ⟨⟨update p.f key none, p.cas⟩, .notfound, [.expired e], []⟩

theorem deleteOp_spec {c : Ctx} (hv : c.Valid) (mem : Mem) (now : Int) (key : Bytes) (cb : Option (Ent → Bool))
    {s : Sh} (h : Inv c s.map) :
    (∃ r, deleteOp c mem now key cb s = .val r ∧ Inv c r.sh.map ∧
      (r.sh.map.ovf = false → s.map.ovf = false ∧ ∀ p, SRep s p →
        let q := pDelete now key cb p
        SRep r.sh q.ps ∧ r.status = q.status ∧ r.evs = q.evs ∧ r.seen = q.seen)) ∨
    deleteOp c mem now key cb s = .abort true := by
  obtain ⟨m1, r, hr, hi1, hov1, ht1, hnone, hsome⟩ := mapDelete_spec hv h key
  unfold deleteOp
  rw [hr]
  simp only [ofLoop, Out.bind]
  cases r with
  | none =>
    left
    refine ⟨_, rfl, h, ?_⟩
    intro ho
    refine ⟨ho, ?_⟩
    intro p hp
    have := rep_none hp.1 ((hnone rfl).2 ho)
    unfold pDelete
    rw [this]
    exact ⟨hp, rfl, rfl, rfl⟩
  | some e =>
    obtain ⟨hk, hc, hes, hlt, hmem, hcont⟩ := hsome e rfl
    have hf : ∀ p, SRep s p → p.f key = some e := by
      intro p hp
      exact (hp.1 _ _).2 ⟨hmem, hk⟩
    have hdel : s.map.ovf = false → ∀ p, SRep s p → Rep m1.cont (update p.f key none) := by
      intro ho p hp
      have := (rep_delete hp.1 (hcont ho) (h.nodup ho)).2
      rwa [hk] at this
    obtain ⟨m2, hm2, hi2, hc2, ht2, he2, ho2⟩ := tryShrink_spec hv hi1 mem.tbl2
    simp only []
    by_cases ha : e.alive now = true
    · rw [ha]
      simp only [Bool.not_true, if_false, Bool.false_eq_true]
      by_cases href : refuses cb e = true
      · simp only [href, if_true]
        obtain ⟨m3, r3, hr3, hi3, hov3, hn3, _, hs3⟩ := mapInsert_spec (e := e) (ok := mem.tbl) hv hi1
        rw [hr3]
        cases r3 with
        | none =>
          exfalso
          have := hn3.1 rfl
          omega
        | some old =>
          obtain ⟨_, _, _, _, heff⟩ := hs3 old rfl
          simp only [assert]
          cases old with
          | none =>
            left
            refine ⟨_, rfl, hi3, ?_⟩
            intro ho
            simp only [] at ho
            have ho1 := hov3 ho
            rw [hov1] at ho1
            refine ⟨ho1, ?_⟩
            intro p hp
            have := (rep_insert (hdel ho1 p hp) (heff ho) (hi3.nodup ho)).2
            rw [hk, update_idem, ← hf p hp, update_eq_self] at this
            unfold pDelete
            rw [hf p hp]
            simp only [ha, if_true, href]
            exact ⟨⟨this, hp.2⟩, by simp⟩
          | some o =>
            right
            simp only [Option.isNone_some, if_false, Bool.false_eq_true]
            congr 1
            by_contra hc
            have ho : m3.ovf = false := by simpa using hc
            have ho1 := hov3 ho
            obtain ⟨f0, hf0⟩ := rep_exists (hi1.nodup ho1)
            have ho1' := ho1
            rw [hov1] at ho1'
            obtain ⟨g, hg⟩ := rep_exists (h.nodup ho1')
            have h1 := (rep_insert (hdel ho1' ⟨g, s.cas⟩ ⟨hg, rfl⟩) (heff ho) (hi3.nodup ho)).1
            rw [hk, update_self] at h1
            simp at h1
      · have hnr : refuses cb e = false := by simpa using href
        rw [hnr, hm2]
        left
        simp only [if_false, Bool.false_eq_true]
        refine ⟨_, rfl, hi2, ?_⟩
        intro ho
        obtain ⟨ho1, hcc⟩ := ho2 ho
        rw [hov1] at ho1
        refine ⟨ho1, ?_⟩
        intro p hp
        have hd := hdel ho1 p hp
        rw [← hcc] at hd
        unfold pDelete
        rw [hf p hp]
        simp only [ha, if_true, hnr, if_false, Bool.false_eq_true]
        exact ⟨⟨hd, hp.2⟩, by simp⟩
    · have ha2 : e.alive now = false := by simpa using ha
      rw [ha2, hm2]
      left
      simp only [Bool.not_false, if_true]
      refine ⟨_, rfl, hi2, ?_⟩
      intro ho
      obtain ⟨ho1, hcc⟩ := ho2 ho
      rw [hov1] at ho1
      refine ⟨ho1, ?_⟩
      intro p hp
      have hd := hdel ho1 p hp
      rw [← hcc] at hd
      unfold pDelete
      rw [hf p hp]
      simp only [ha2, if_false, Bool.false_eq_true]
      exact ⟨⟨hd, hp.2⟩, by simp⟩

end Verif.Shard
