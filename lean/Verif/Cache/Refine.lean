import Verif.Cache.Model
import Verif.Cache.Spec
import Verif.Shard.AbsScan
import Verif.Num.Props

/-!
The cache refines the dictionary of `Verif.Cache.Spec`.
-/

namespace Verif.Cache

open Verif.Map Verif.Shard Function

/-- The item a user sees in an entry. -/
def item (e : Ent) : Spec.Item := ⟨e.value, e.expires, e.flags, e.cas⟩

/-- Key and item. -/
def kv (e : Ent) : Bytes × Spec.Item := (e.key, item e)

def toAct : Spec.Answer → Act
  | .cont => .cont
  | .stop => .stop
  | .delete => .delete
  | .deleteStop => .deleteStop

def toStatus : Status → Spec.Status
  | .inserted => .inserted
  | .replaced => .replaced
  | .found => .found
  | .notfound => .notfound
  | .deleted => .deleted
  | .finished => .finished
  | .canceled => .canceled
  | .nomem => .nomem

def storeOpts (a : Spec.StoreArgs) : StoreOpts :=
  { expires := a.expires, ttl := a.ttl, cas := a.cas, flags := a.flags, keepttl := a.keepttl, casop := a.casop
    nx := a.nx, xx := a.xx, lowmem := a.lowmem, entry := a.ask.map fun f e => f (item e) }

def loadOpts (notouch : Bool) (cb : Option (Spec.Item → Option Spec.NewVal)) : LoadOpts :=
  ⟨notouch, cb.map fun f e => (f (item e)).map fun u => ⟨u.value, u.flags, u.expires⟩⟩

/-- The C callback, seen from a user function of the visible data: the callbacks get key, value, expiry,
flags and token (`/repo/src/pogocache.h:79-139`). -/
def iterCb (f : List (Bytes × Spec.Item) → Bytes × Spec.Item → Spec.Answer) : List Ent → Ent → Act :=
  fun l e => toAct (f (l.map kv) (kv e))

def toOp : Spec.Call → Op
  | .load k nt cb => .load k (loadOpts nt cb)
  | .store a => .store a.key a.val (storeOpts a)
  | .delete k ask => .delete k (ask.map fun f e => f (item e))
  | .iter one cb => .iter one (cb.map iterCb)
  | .sweep one => .sweep one
  | .clear one => .clear one

def reply (r : CRes) : Spec.Reply := ⟨toStatus r.status, r.seen.map kv⟩

/-! ### The relation -/

/-- Entries of a shard agree with the dictionary from `now` on. -/
def VR (grp : Bytes → Nat) (i : Nat) (now : Int) (f : Bytes → Option Ent) (d : Spec.Dict) : Prop :=
  (∀ k e, f k = some e → grp k = i) ∧
  ∀ k, grp k = i → ∀ t, now ≤ t → ((f k).filter (·.alive t)).map item = d.get t k

/-- The representation relation. -/
def R (c : Ctx) (n : Nat) (now : Int) (shs : Shards) (st : Spec.State) : Prop :=
  ∀ i, i < n → ∃ p, SRep (shs i) p ∧ p.cas = st.tok i ∧ VR (shardIdx c n) i now p.f st.dict

def AllInv (c : Ctx) (n : Nat) (shs : Shards) : Prop := ∀ i, i < n → Inv c (shs i).map

def NoWrap (n : Nat) (shs : Shards) : Prop := ∀ i, i < n → (shs i).map.ovf = false

theorem shardIdx_lt (c : Ctx) {n : Nat} (hn : 0 < n) (k : Bytes) : shardIdx c n k < n := Nat.mod_lt _ hn

theorem item_visible (e : Ent) (t : Int) : (item e).visible t = e.alive t := by
  unfold item Spec.Item.visible Ent.alive aliveExp
  simp

theorem alive_mono {e : Ent} {t t' : Int} (h : t ≤ t') (ha : e.alive t' = true) : e.alive t = true := by
  unfold Ent.alive aliveExp at *
  simp at *
  omega

theorem visible_mono {e : Spec.Item} {t t' : Int} (h : t ≤ t') (ha : e.visible t' = true) : e.visible t = true := by
  unfold Spec.Item.visible at *
  simp at *
  omega

/-- Nothing visible now means nothing visible later. -/
theorem get_none_later {d : Spec.Dict} {t t' : Int} {k : Bytes} (h : t ≤ t') (hn : d.get t k = none) :
    d.get t' k = none := by
  unfold Spec.Dict.get at *
  cases hd : d k with
  | none => simp
  | some it =>
    rw [hd] at hn
    simp at hn ⊢
    by_contra hc
    have := visible_mono h (by simpa using hc)
    rw [hn] at this
    simp at this

theorem VR.later {grp : Bytes → Nat} {i : Nat} {now now' : Int} {f : Bytes → Option Ent} {d : Spec.Dict}
    (h : VR grp i now f d) (hle : now ≤ now') : VR grp i now' f d :=
  ⟨h.1, fun k hk t ht => h.2 k hk t (by omega)⟩

/-- What a lookup sees. -/
theorem VR.get {grp : Bytes → Nat} {i : Nat} {now : Int} {f : Bytes → Option Ent} {d : Spec.Dict}
    (h : VR grp i now f d) {k : Bytes} (hk : grp k = i) :
    d.get now k = ((PS.live ⟨f, 0⟩ now k)).map item := by
  rw [← h.2 k hk now (le_refl _)]
  unfold PS.live
  simp only []
  cases hf : f k with
  | none => rfl
  | some e =>
    simp only [Option.filter_some]

theorem live_cas (p : PS) (now : Int) (k : Bytes) : PS.live ⟨p.f, 0⟩ now k = p.live now k := rfl

/-- A change at one key. -/
theorem VR.set {grp : Bytes → Nat} {i : Nat} {now : Int} {f : Bytes → Option Ent} {d : Spec.Dict}
    (h : VR grp i now f d) {k : Bytes} (hk : grp k = i) {x : Option Ent} {y : Option Spec.Item}
    (hxy : ∀ t, now ≤ t → (x.filter (·.alive t)).map item = y.filter (·.visible t)) :
    VR grp i now (update f k x) (update d k y) := by
  constructor
  · intro k' e he
    by_cases hkk : k' = k
    · rw [hkk]; exact hk
    · rw [update_of_ne hkk] at he; exact h.1 k' e he
  · intro k' hk' t ht
    by_cases hkk : k' = k
    · subst hkk
      unfold Spec.Dict.get
      rw [update_self, update_self]
      exact hxy t ht
    · have := h.2 k' hk' t ht
      unfold Spec.Dict.get at *
      rw [update_of_ne hkk, update_of_ne hkk]
      exact this

theorem filter_item (e : Ent) (t : Int) :
    ((some e : Option Ent).filter (·.alive t)).map item = (some (item e)).filter (·.visible t) := by
  simp only [Option.filter_some, item_visible]
  by_cases ha : e.alive t = true <;> simp [ha]

/-- An entry may be replaced by one that looks the same. -/
theorem VR.same {grp : Bytes → Nat} {i : Nat} {now : Int} {f : Bytes → Option Ent} {d : Spec.Dict}
    (h : VR grp i now f d) {k : Bytes} (hk : grp k = i) {x : Option Ent}
    (hx : ∀ t, now ≤ t → (x.filter (·.alive t)).map item = ((f k).filter (·.alive t)).map item) :
    VR grp i now (update f k x) d := by
  have := h.set hk (x := x) (y := d k) (fun t ht => by
    rw [hx t ht, h.2 k hk t ht]; rfl)
  rwa [update_eq_self] at this

theorem VR.dropDead {grp : Bytes → Nat} {i : Nat} {now : Int} {f : Bytes → Option Ent} {d : Spec.Dict}
    (h : VR grp i now f d) {k : Bytes} (hk : grp k = i) (hd : PS.live ⟨f, 0⟩ now k = none) :
    VR grp i now (update f k none) d := by
  apply h.same hk
  intro t ht
  have h1 := get_none_later ht (k := k) (d := d) (by rw [h.get hk, hd]; rfl)
  rw [h.2 k hk t ht, h1]
  rfl

/-- Putting a changed shard back. -/
theorem R.put {c : Ctx} {n : Nat} {now0 now : Int} {shs : Shards} {st st' : Spec.State} (h : R c n now0 shs st)
    (hle : now0 ≤ now) {i : Nat} {sh' : Sh} {p' : PS} (hr : SRep sh' p') (hcas : p'.cas = st'.tok i)
    (hv : VR (shardIdx c n) i now p'.f st'.dict) (htok : ∀ j, j ≠ i → st'.tok j = st.tok j)
    (hd : ∀ k, shardIdx c n k ≠ i → st'.dict k = st.dict k) : R c n now (update shs i sh') st' := by
  intro j hj
  by_cases hji : j = i
  · subst hji
    rw [update_self]
    exact ⟨p', hr, hcas, hv⟩
  · rw [update_of_ne hji]
    obtain ⟨p, hp, hpc, hpv⟩ := h j hj
    refine ⟨p, hp, by rw [htok j hji]; exact hpc, ?_⟩
    have hpv := hpv.later hle
    refine ⟨hpv.1, ?_⟩
    intro k hk t ht
    rw [hpv.2 k hk t ht]
    unfold Spec.Dict.get
    rw [hd k (by rw [hk]; exact hji)]

theorem R.later {c : Ctx} {n : Nat} {now0 now : Int} {shs : Shards} {st : Spec.State} (h : R c n now0 shs st)
    (hle : now0 ≤ now) : R c n now shs st := fun i hi => by
  obtain ⟨p, h1, h2, h3⟩ := h i hi
  exact ⟨p, h1, h2, h3.later hle⟩

theorem AllInv.put {c : Ctx} {n : Nat} {shs : Shards} (h : AllInv c n shs) {i : Nat} {sh' : Sh} (hi : Inv c sh'.map) :
    AllInv c n (update shs i sh') := by
  intro j hj
  by_cases hji : j = i
  · subst hji; rw [update_self]; exact hi
  · rw [update_of_ne hji]; exact h j hj

theorem NoWrap.back {n : Nat} {shs : Shards} {i : Nat} {sh' : Sh} (h : NoWrap n (update shs i sh'))
    (hi : sh'.map.ovf = false → (shs i).map.ovf = false) : NoWrap n shs := by
  intro j hj
  have := h j hj
  by_cases hji : j = i
  · subst hji; rw [update_self] at this; exact hi this
  · rwa [update_of_ne hji] at this

theorem NoWrap.self {n : Nat} {shs : Shards} {i : Nat} {sh' : Sh} (h : NoWrap n (update shs i sh')) (hi : i < n) :
    sh'.map.ovf = false := by
  have := h i hi
  rwa [update_self] at this

/-! ### One call -/

/-- Outcome of a call: it completes as the dictionary says, or an assertion failed after a distance byte
had wrapped. -/
def Refines (c : Ctx) (n : Nat) (oom : Bool) (now : Int) (call : Spec.Call) (shs : Shards) (o : Out CRes) : Prop :=
  (∃ r, o = .val r ∧ AllInv c n r.shs ∧ (NoWrap n r.shs → NoWrap n shs ∧
    ∀ now0 st, now0 ≤ now → R c n now0 shs st → ∃ st', R c n now r.shs st' ∧
      Spec.Step ⟨c.usecas, c.noevict, shardIdx c n⟩ oom now call st (reply r) st')) ∨
  o = .abort true

theorem load_refines {c : Ctx} (hv : c.Valid) {n : Nat} (hn : 0 < n) (mem : Nat → Mem) (oom : Bool) (now : Int)
    (key : Bytes) (nt : Bool) (cb : Option (Spec.Item → Option Spec.NewVal)) {shs : Shards} (h : AllInv c n shs)
    (hoom : oom = false → ∀ i, mem i = ⟨true, true, true⟩) :
    Refines c n oom now (.load key nt cb) shs (exec c n mem now (.load key (loadOpts nt cb)) shs) := by
  left
  have hin := shardIdx_lt c hn key
  set i := shardIdx c n key with hi
  obtain ⟨r, hr, hinv, hov, hspec⟩ := loadOp_spec hv (mem i) now key (loadOpts nt cb) (h i hin)
  unfold exec onKey
  simp only [← hi, hr, Out.bind]
  refine ⟨_, rfl, h.put hinv, ?_⟩
  intro hnw
  have hnw0 := hnw.back (fun ho => by rw [← hov]; exact ho)
  refine ⟨hnw0, ?_⟩
  intro now0 st hle hR
  obtain ⟨p, hp, hpc, hpv⟩ := hR i hin
  have hpv := hpv.later hle
  obtain ⟨hs1, hs2, hs3, hs4⟩ := hspec (hnw0 i hin) p hp
  have hget := hpv.get (k := key) hi.symm
  rw [live_cas] at hget
  simp only [reply, hs2, hs4]
  unfold pLoad at hs1 ⊢
  unfold PS.live at hget
  unfold Spec.Step
  simp only []
  cases hf : p.f key with
  | none =>
    rw [hf] at hs1 hget
    simp only [] at hs1 hget
    rw [hget]
    refine ⟨st, hR.put hle hs1 hpc hpv (fun _ _ => rfl) (fun _ _ => rfl), ?_⟩
    simp [toStatus]
  | some e =>
    rw [hf] at hs1 hget
    simp only [] at hs1 hget
    by_cases ha : e.alive now = true
    · simp only [ha, if_true] at hs1 hget ⊢
      rw [hget]
      simp only [Option.map_some]
      set e1 := (if (loadOpts nt cb).notouch then e else { e with time := now }) with he1
      have hie : item e1 = item e := by rw [he1]; split <;> rfl
      have hke : e1.key = key := by
        have := ((hp.1 _ _).1 hf).2
        rw [he1]; split <;> simpa using this
      have hkv : kv e1 = (key, item e) := by unfold kv; rw [hke, hie]
      have hal : ∀ t, e1.alive t = e.alive t := by intro t; rw [he1]; split <;> rfl
      have hsame : VR (shardIdx c n) i now (update p.f key (some e1)) st.dict := by
        apply hpv.same hi.symm
        intro t ht
        rw [filter_item, hf, filter_item, hie]
      cases cb with
      | none =>
        simp only [loadOpts, Option.map_none] at hs1 ⊢
        refine ⟨st, hR.put hle hs1 hpc hsame (fun _ _ => rfl) (fun _ _ => rfl), ?_⟩
        simp [toStatus]
      | some f =>
        simp only [loadOpts, Option.map_some] at hs1 ⊢
        rw [hie] at hs1 ⊢
        cases hfi : f (item e) with
        | none =>
          rw [hfi] at hs1
          simp only [Option.map_none] at hs1 ⊢
          refine ⟨st, hR.put hle hs1 hpc hsame (fun _ _ => rfl) (fun _ _ => rfl), ?_⟩
          simp [toStatus, hkv]
        | some u =>
          rw [hfi] at hs1
          simp only [Option.map_some] at hs1 ⊢
          by_cases hm : (mem i).ent = true
          · simp only [hm, if_true] at hs1 ⊢
            refine ⟨⟨update st.dict key (some (item (mkEnt c key u.value u.expires u.flags (p.cas + 1) now))),
              update st.tok i (st.tok i + 1)⟩, ?_, ?_⟩
            · refine hR.put hle hs1 (by simp [hpc]) (hpv.set hi.symm (fun t ht => filter_item _ t)) ?_ ?_
              · intro j hj; exact update_of_ne hj _ _
              · intro k hk
                exact update_of_ne (by rintro rfl; exact hk hi.symm) _ _
            · left
              rw [← hi]; simp [toStatus, hkv, item, mkEnt, Spec.normExp, hpc]
          · simp only [hm, if_false, Bool.false_eq_true] at hs1 ⊢
            have hoo : oom = true := by
              by_contra hc
              have := hoom (by simpa using hc) i
              rw [this] at hm; simp at hm
            refine ⟨⟨st.dict, update st.tok i (st.tok i + 1)⟩, ?_, ?_⟩
            · refine hR.put hle hs1 (by simp [hpc]) hsame ?_ (fun _ _ => rfl)
              intro j hj; exact update_of_ne hj _ _
            · right
              rw [← hi]; simp [hoo, toStatus, hkv]
    · simp only [ha, if_false, Bool.false_eq_true] at hs1 hget ⊢
      rw [hget]
      refine ⟨st, hR.put hle hs1 hpc ?_ (fun _ _ => rfl) (fun _ _ => rfl), ?_⟩
      · exact hpv.dropDead hi.symm (by unfold PS.live; simp only [hf]; simp [ha])
      · simp [toStatus]

theorem delete_refines {c : Ctx} (hv : c.Valid) {n : Nat} (hn : 0 < n) (mem : Nat → Mem) (oom : Bool) (now : Int)
    (key : Bytes) (ask : Option (Spec.Item → Bool)) {shs : Shards} (h : AllInv c n shs) :
    Refines c n oom now (.delete key ask) shs
      (exec c n mem now (.delete key (ask.map fun f e => f (item e))) shs) := by
  have hin := shardIdx_lt c hn key
  set i := shardIdx c n key with hi
  unfold exec onKey
  simp only [← hi]
  rcases deleteOp_spec hv (mem i) now key (ask.map fun f e => f (item e)) (h i hin) with ⟨r, hr, hinv, hspec⟩ | hab
  swap
  · right; rw [hab]; rfl
  left
  simp only [hr, Out.bind]
  refine ⟨_, rfl, h.put hinv, ?_⟩
  intro hnw
  have hsp := hspec (hnw.self hin)
  have hnw0 := hnw.back (fun ho => (hspec ho).1)
  refine ⟨hnw0, ?_⟩
  intro now0 st hle hR
  obtain ⟨p, hp, hpc, hpv⟩ := hR i hin
  have hpv := hpv.later hle
  obtain ⟨hs1, hs2, hs3, hs4⟩ := hsp.2 p hp
  have hget := hpv.get (k := key) hi.symm
  rw [live_cas] at hget
  simp only [reply, hs2, hs4]
  unfold pDelete at hs1 ⊢
  unfold PS.live at hget
  unfold Spec.Step
  simp only []
  cases hf : p.f key with
  | none =>
    rw [hf] at hs1 hget
    simp only [] at hs1 hget
    rw [hget]
    refine ⟨st, hR.put hle hs1 hpc hpv (fun _ _ => rfl) (fun _ _ => rfl), ?_⟩
    simp [toStatus]
  | some e =>
    rw [hf] at hs1 hget
    simp only [] at hs1 hget
    by_cases ha : e.alive now = true
    · simp only [ha, if_true] at hs1 hget ⊢
      rw [hget]
      simp only [Option.map_some]
      have hke : e.key = key := ((hp.1 _ _).1 hf).2
      have href : (refuses (ask.map fun f e => f (item e)) e = true) ↔ ask.map (· (item e)) = some false := by
        cases ask <;> simp [refuses]
      have hsh : (shown (ask.map fun f e => f (item e)) e).map kv = if ask.isSome then [(key, item e)] else [] := by
        cases ask <;> simp [shown, kv, hke]
      by_cases hrf : refuses (ask.map fun f e => f (item e)) e = true
      · simp only [hrf, if_true] at hs1 ⊢
        refine ⟨st, hR.put hle hs1 hpc hpv (fun _ _ => rfl) (fun _ _ => rfl), ?_⟩
        rw [if_pos (href.1 hrf), hsh]; exact ⟨rfl, rfl⟩
      · simp only [hrf, if_false, Bool.false_eq_true] at hs1 ⊢
        refine ⟨⟨update st.dict key none, st.tok⟩, hR.put hle hs1 hpc ?_ (fun _ _ => rfl) ?_, ?_⟩
        · exact hpv.set hi.symm (fun t ht => rfl)
        · intro k hk
          exact update_of_ne (by rintro rfl; exact hk hi.symm) _ _
        · rw [if_neg (fun hc => hrf (href.2 hc)), hsh]; exact ⟨rfl, rfl⟩
    · simp only [ha, if_false, Bool.false_eq_true] at hs1 hget ⊢
      rw [hget]
      refine ⟨st, hR.put hle hs1 hpc ?_ (fun _ _ => rfl) (fun _ _ => rfl), ?_⟩
      · exact hpv.dropDead hi.symm (by unfold PS.live; simp only [hf]; simp [ha])
      · simp [toStatus]

theorem reqExpires_val {a : Spec.StoreArgs} {now : Int} (h0 : 0 < now) (h1 : Num.IsI64 now) (h2 : Num.IsI64 a.ttl) :
    reqExpires (storeOpts a) now = .val (a.asked now) := by
  unfold reqExpires Spec.StoreArgs.asked storeOpts
  simp only []
  split
  · rfl
  · split
    · rw [Num.addClamp_exact _ _ h1 h2]
      simp only []
      congr 1
      unfold Num.saturate
      split
      · omega
      · split <;> omega
    · rfl

theorem store_refines {c : Ctx} (hv : c.Valid) {n : Nat} (hn : 0 < n) (mem : Nat → Mem) (oom : Bool) (now : Int)
    (a : Spec.StoreArgs) {shs : Shards} (h : AllInv c n shs)
    (hoom : oom = false → ∀ i, mem i = ⟨true, true, true⟩) (hent : ∀ i, (mem i).ent = true)
    (h0 : 0 < now) (h1 : Num.IsI64 now) (h2 : Num.IsI64 a.ttl) :
    Refines c n oom now (.store a) shs (exec c n mem now (.store a.key a.val (storeOpts a)) shs) := by
  have hin := shardIdx_lt c hn a.key
  set i := shardIdx c n a.key with hi
  unfold exec onKey
  simp only [← hi]
  rcases storeOp_spec hv (mem i) now a.key a.val (storeOpts a) (h i hin) (reqExpires_val h0 h1 h2) (hent i) with
    ⟨r, hr, hinv, _, hspec⟩ | hab
  swap
  · right; rw [hab]; rfl
  left
  simp only [hr, Out.bind]
  refine ⟨_, rfl, h.put hinv, ?_⟩
  intro hnw
  have hsp := hspec (hnw.self hin)
  have hnw0 := hnw.back (fun ho => (hspec ho).1)
  refine ⟨hnw0, ?_⟩
  intro now0 st hle hR
  obtain ⟨p, hp, hpc, hpv⟩ := hR i hin
  have hpv := hpv.later hle
  obtain ⟨q, hq1, hq2, hq3, hq4, hq5⟩ := hsp.2 p hp
  have hget := hpv.get (k := a.key) hi.symm
  rw [live_cas] at hget
  simp only [reply, hq2, hq4]
  have htok : ∀ j, j ≠ i → update st.tok i (st.tok i + 1) j = st.tok j := fun j hj => update_of_ne hj _ _
  unfold Spec.Step
  simp only [← hi]
  -- no change of the contents
  have hsame : q.ps.f = p.f → q.ps.cas = p.cas + 1 →
      R c n now (update shs i r.sh) ⟨st.dict, update st.tok i (st.tok i + 1)⟩ := by
    intro hqf hqc
    refine hR.put hle hq1 (by rw [hqc]; simp [hpc]) ?_ htok (fun _ _ => rfl)
    rw [hqf]; exact hpv
  by_cases hnm : storeNomem c (mem i) (storeOpts a) (shs i) = true
  · rw [if_pos hnm] at hq5
    subst hq5
    refine ⟨_, hsame rfl rfl, ?_⟩
    by_cases hlm : (a.lowmem && c.noevict) = true
    · rw [if_pos hlm]; simp [toStatus]
    · rw [if_neg hlm]
      left
      have hoo : oom = true := by
        by_contra hc
        have hmm := hoom (by simpa using hc) i
        have hl2 : ((storeOpts a).lowmem && c.noevict) = false := by simpa [storeOpts] using hlm
        unfold storeNomem at hnm
        rw [hl2, hmm] at hnm
        simp at hnm
      exact ⟨hoo, by simp [toStatus], rfl⟩
  · rw [if_neg hnm] at hq5
    have hlm : ¬ (a.lowmem && c.noevict) = true := by
      intro hc
      apply hnm
      unfold storeNomem
      rw [show ((storeOpts a).lowmem && c.noevict) = true from hc]
      rfl
    simp only [if_neg hlm]
    unfold PStore at hq5
    simp only [] at hq5
    cases hl : p.live now a.key with
    | some old =>
      rw [hl] at hq5 hget
      simp only [] at hq5
      rw [hget]
      simp only [Option.map_some]
      have hfk : p.f a.key = some old ∧ old.alive now = true := by
        unfold PS.live at hl
        cases hf : p.f a.key with
        | none => rw [hf] at hl; simp at hl
        | some e =>
          rw [hf] at hl
          simp only [] at hl
          split at hl
          · simp at hl; subst hl; exact ⟨rfl, by assumption⟩
          · simp at hl
      have hke : old.key = a.key := ((hp.1 _ _).1 hfk.1).2
      have hpb : (putBack c (storeOpts a) old = true) ↔
          (if a.casop then c.usecas = false ∨ a.cas ≠ (item old).cas else a.nx = true) := by
        unfold putBack storeOpts item
        simp only []
        cases a.casop <;> cases c.usecas <;> simp
      have href : (refuses (storeOpts a).entry old = true) ↔ a.ask.map (· (item old)) = some false := by
        unfold storeOpts
        cases a.ask <;> simp [refuses]
      have hsh : (shown (storeOpts a).entry old).map kv = if a.ask.isSome then [(a.key, item old)] else [] := by
        unfold storeOpts
        cases a.ask <;> simp [shown, kv, hke]
      by_cases h3 : putBack c (storeOpts a) old = true
      · rw [if_pos h3] at hq5
        subst hq5
        refine ⟨_, hsame rfl rfl, Or.inr ?_⟩
        rw [if_pos (hpb.1 h3)]
        simp [toStatus]
      · rw [if_neg h3] at hq5
        by_cases h4 : refuses (storeOpts a).entry old = true
        · rw [if_pos h4] at hq5
          subst hq5
          refine ⟨_, hsame rfl rfl, Or.inr ?_⟩
          rw [if_neg (fun hc => h3 (hpb.2 hc)), if_pos (href.1 h4)]
          rw [hsh]; exact ⟨rfl, rfl⟩
        · rw [if_neg h4] at hq5
          subst hq5
          refine ⟨⟨update st.dict a.key (some (item (p.newEnt c now a.key a.val (storeOpts a) (a.asked now)))),
            update st.tok i (st.tok i + 1)⟩, ?_, Or.inr ?_⟩
          · refine hR.put hle hq1 (by simp [hpc]) (hpv.set hi.symm (fun t ht => filter_item _ t)) htok ?_
            intro k hk
            exact update_of_ne (by rintro rfl; exact hk hi.symm) _ _
          · rw [if_neg (fun hc => h3 (hpb.2 hc)), if_neg (fun hc => h4 (href.2 hc)), hsh]
            refine ⟨rfl, ?_⟩
            unfold PS.newEnt PS.expiry
            rw [hl]
            simp only [item, mkEnt, Spec.normExp, hpc, storeOpts, Option.map_some, Option.getD_some, update_self]
            try rfl
    | none =>
      rw [hl] at hq5 hget
      simp only [] at hq5
      rw [hget]
      simp only [Option.map_none]
      by_cases hx : a.xx ∨ a.casop
      · rw [if_pos (by simpa [storeOpts] using hx)] at hq5
        subst hq5
        refine ⟨⟨st.dict, update st.tok i (st.tok i + 1)⟩, ?_, Or.inr ?_⟩
        · exact hR.put hle hq1 (by simp [hpc]) (hpv.dropDead hi.symm hl) htok (fun _ _ => rfl)
        · rw [if_pos hx]; simp [toStatus]
      · rw [if_neg (by simpa [storeOpts] using hx)] at hq5
        have hnew : item (p.newEnt c now a.key a.val (storeOpts a) (a.asked now)) =
            ⟨a.val, Spec.normExp (a.asked now), a.flags, if c.usecas then update st.tok i (st.tok i + 1) i else 0⟩ := by
          have hexp : p.expiry now a.key (storeOpts a) (a.asked now) = a.asked now := by
            unfold PS.expiry
            rw [hl]
            split <;> rfl
          unfold PS.newEnt
          rw [hexp, hpc]
          simp only [item, mkEnt, Spec.normExp, update_self]
          rfl
        have hvn : VR (shardIdx c n) i now (update p.f a.key (some (p.newEnt c now a.key a.val (storeOpts a) (a.asked now))))
            (update st.dict a.key (some (item (p.newEnt c now a.key a.val (storeOpts a) (a.asked now))))) :=
          hpv.set hi.symm (fun t ht => filter_item _ t)
        rcases hq5 with hq5 | ⟨hlow, hfn, v, ev, hev, hvk, hfv, hq5⟩
        · subst hq5
          refine ⟨⟨update st.dict a.key (some (item (p.newEnt c now a.key a.val (storeOpts a) (a.asked now)))),
            update st.tok i (st.tok i + 1)⟩, ?_, Or.inr ?_⟩
          · refine hR.put hle hq1 (by simp [hpc]) hvn htok ?_
            intro k hk
            exact update_of_ne (by rintro rfl; exact hk hi.symm) _ _
          · rw [if_neg hx]
            refine ⟨by simp [toStatus], Or.inl ?_⟩
            rw [hnew]
        · subst hq5
          have hvi : shardIdx c n v.key = i := hpv.1 _ _ hfv
          refine ⟨⟨update (update st.dict a.key (some (item (p.newEnt c now a.key a.val (storeOpts a) (a.asked now))))) v.key none,
            update st.tok i (st.tok i + 1)⟩, ?_, Or.inr ?_⟩
          · refine hR.put hle hq1 (by simp [hpc]) (hvn.set hvi (fun t ht => rfl)) htok ?_
            intro k hk
            simp only []
            rw [update_of_ne (by rintro rfl; exact hk hvi), update_of_ne (by rintro rfl; exact hk hi.symm)]
          · rw [if_neg hx]
            refine ⟨by simp [toStatus], Or.inr ⟨hlow, v.key, hvk, ?_⟩⟩
            rw [hnew]

/-! ### Scans -/

theorem dels_shift (act : List Ent → Ent → Act) (acc pre l : List Ent) :
    dels (fun x e => act (acc ++ x) e) pre l = dels act (acc ++ pre) l := by
  induction l generalizing pre with
  | nil => rfl
  | cons a l ih =>
    unfold dels
    rw [ih, List.append_assoc]

theorem stoppedBy_shift (act : List Ent → Ent → Act) (acc pre l : List Ent) :
    stoppedBy (fun x e => act (acc ++ x) e) pre l = stoppedBy act (acc ++ pre) l := by
  induction l generalizing pre with
  | nil => rfl
  | cons a l ih =>
    unfold stoppedBy
    rw [ih, List.append_assoc]

theorem dels_append (act : List Ent → Ent → Act) (pre l l' : List Ent) :
    dels act pre (l ++ l') = dels act pre l ++ dels act (pre ++ l) l' := by
  induction l generalizing pre with
  | nil => simp [dels]
  | cons a l ih =>
    rw [List.cons_append, dels, ih, dels]; simp

theorem stoppedBy_append (act : List Ent → Ent → Act) (pre l l' : List Ent) :
    stoppedBy act pre (l ++ l') = (stoppedBy act pre l || stoppedBy act (pre ++ l) l') := by
  induction l generalizing pre with
  | nil => simp [stoppedBy]
  | cons a l ih =>
    rw [List.cons_append, stoppedBy, ih, stoppedBy, Bool.or_assoc]; simp

theorem dels_mem (act : List Ent → Ent → Act) (l pre : List Ent) {x : Ent} (h : x ∈ dels act pre l) : x ∈ l := by
  induction l generalizing pre with
  | nil => simp [dels] at h
  | cons a l ih =>
    unfold dels at h
    rcases List.mem_append.1 h with h | h
    · split at h
      · simp at h; simp [h]
      · simp at h
    · exact List.mem_cons_of_mem _ (ih _ h)

theorem dels_cont (l pre : List Ent) : dels (fun _ _ => .cont) pre l = [] := by
  induction l generalizing pre with
  | nil => rfl
  | cons a l ih => unfold dels; rw [ih]; rfl

theorem stoppedBy_cont (l pre : List Ent) : stoppedBy (fun _ _ => .cont) pre l = false := by
  induction l generalizing pre with
  | nil => rfl
  | cons a l ih => unfold stoppedBy; rw [ih]; rfl

theorem dels_iterCb (f : List (Bytes × Spec.Item) → Bytes × Spec.Item → Spec.Answer) (l pre : List Ent) :
    (dels (iterCb f) pre l).map Ent.key = Spec.asksDel f (pre.map kv) (l.map kv) := by
  induction l generalizing pre with
  | nil => rfl
  | cons a l ih =>
    rw [List.map_cons]
    unfold dels Spec.asksDel
    rw [List.map_append, ih, List.map_append, List.map_cons, List.map_nil]
    congr 1
    unfold iterCb
    cases f (pre.map kv) (kv a) <;> simp [toAct, Act.del, kv]

theorem stoppedBy_iterCb (f : List (Bytes × Spec.Item) → Bytes × Spec.Item → Spec.Answer) (l pre : List Ent) :
    stoppedBy (iterCb f) pre l = Spec.asksStop f (pre.map kv) (l.map kv) := by
  induction l generalizing pre with
  | nil => rfl
  | cons a l ih =>
    rw [List.map_cons]
    unfold stoppedBy Spec.asksStop
    rw [ih, List.map_append, List.map_cons, List.map_nil]
    congr 1
    unfold iterCb
    cases f (pre.map kv) (kv a) <;> simp [toAct, Act.stops]

/-- Dictionary without some keys. -/
def dropKeys (d : Spec.Dict) (ks : List Bytes) : Spec.Dict := fun k => if k ∈ ks then none else d k

theorem dropKeys_nil (d : Spec.Dict) : dropKeys d [] = d := by funext k; simp [dropKeys]

theorem dropKeys_of_not_mem {d : Spec.Dict} {ks : List Bytes} {k : Bytes} (h : k ∉ ks) : dropKeys d ks k = d k := by
  simp [dropKeys, h]

/-- After a scan of one shard the remaining entries agree with the dictionary without the deleted keys. -/
theorem VR.scan {grp : Bytes → Nat} {i : Nat} {now : Int} {p : PS} {d : Spec.Dict} (h : VR grp i now p.f d)
    {act : List Ent → Ent → Act} {f' : Bytes → Option Ent} {evs : List Ev} {seen : List Ent} {stopped : Bool}
    (hs : PScan now act p f' evs seen stopped) : VR grp i now f' (dropKeys d ((dels act [] seen).map Ent.key)) := by
  rw [hs.after]
  constructor
  · intro k e he
    unfold removed at he
    split at he
    · simp at he
    · exact h.1 k e he
  · intro k hk t ht
    have h2 := h.2 k hk t ht
    unfold removed dropKeys Spec.Dict.get
    rw [← hs.dels]
    simp only []
    have hin : k ∈ (evs.filterMap Ev.deletedEnt).map Ent.key → k ∈ (evs.flatMap Ev.gone).map Ent.key := by
      intro hm
      obtain ⟨e, he, rfl⟩ := List.mem_map.1 hm
      obtain ⟨ev, hev, hee⟩ := List.mem_filterMap.1 he
      refine List.mem_map.2 ⟨e, List.mem_flatMap.2 ⟨ev, hev, ?_⟩, rfl⟩
      cases ev <;> simp [Ev.deletedEnt] at hee
      simp [Ev.gone, hee]
    by_cases hd : k ∈ (evs.filterMap Ev.deletedEnt).map Ent.key
    · rw [if_pos (hin hd), if_pos hd]; rfl
    · rw [if_neg hd]
      split
      · rename_i hg
        obtain ⟨e, he, rfl⟩ := List.mem_map.1 hg
        obtain ⟨ev, hev, hee⟩ := List.mem_flatMap.1 he
        rcases hs.kinds ev hev with ⟨e', rfl, ha, hf⟩ | ⟨e', rfl, ha, hf⟩
        · have : e = e' := by simpa [Ev.gone] using hee
          subst this
          rw [hf] at h2
          have : e.alive t = false := by
            by_contra hc
            have := alive_mono ht (by simpa using hc)
            rw [ha] at this; simp at this
          unfold Spec.Dict.get at h2
          rw [← h2]
          simp [this]
        · exfalso
          have : e = e' := by simpa [Ev.gone] using hee
          subst this
          exact hd (List.mem_map.2 ⟨e, List.mem_filterMap.2 ⟨_, hev, rfl⟩, rfl⟩)
      · exact h2

theorem iterShards_refines {c : Ctx} (hv : c.Valid) {n : Nat} (mem : Nat → Mem) (now : Int)
    (cb : Option (List Ent → Ent → Act)) (is : List Nat) (acc : List Ent) (shs : Shards)
    (hnd : is.Nodup) (hlt : ∀ i ∈ is, i < n) (h : AllInv c n shs) :
    ∃ r, iterShards c mem now cb is acc shs = .val r ∧ AllInv c n r.shs ∧ (NoWrap n r.shs → NoWrap n shs ∧
      ∀ st, R c n now shs st → ∃ new : List Ent,
        (r.seen = if cb.isSome then acc ++ new else acc) ∧
        (∀ e ∈ new, st.dict.get now e.key = some (item e) ∧ shardIdx c n e.key ∈ is) ∧
        (cb.isSome → r.status = if stoppedBy (cb.getD fun _ _ => .cont) acc new then .canceled else .finished) ∧
        (cb = none → r.status = .finished) ∧
        (r.status = .finished → ∀ k it, shardIdx c n k ∈ is → st.dict.get now k = some it → (k, it) ∈ new.map kv) ∧
        R c n now r.shs ⟨dropKeys st.dict (((if cb.isSome then
          dels (cb.getD fun _ _ => .cont) acc new else [])).map Ent.key), st.tok⟩) := by
  induction is generalizing acc shs with
  | nil =>
    refine ⟨_, rfl, h, fun hnw => ⟨hnw, ?_⟩⟩
    intro st hR
    refine ⟨[], by simp, by simp, by simp [stoppedBy], by simp, by simp, ?_⟩
    have : (⟨dropKeys st.dict (((if cb.isSome then dels (cb.getD fun _ _ => .cont) acc [] else [])).map Ent.key), st.tok⟩ : Spec.State) = st := by
      have : (if cb.isSome then dels (cb.getD fun _ _ => .cont) acc [] else []) = [] := by split <;> rfl
      rw [this]; unfold dropKeys; simp
    rw [this]; exact hR
  | cons i is ih =>
    have hi : i < n := hlt i (by simp)
    obtain ⟨hni, hnd'⟩ := List.nodup_cons.1 hnd
    unfold iterShards
    set act := cb.getD fun _ _ => .cont with hact
    set cb' : Option (List Ent → Ent → Act) := cb.map fun f l e => f (acc ++ l) e with hcb'
    have hact' : cb'.getD (fun _ _ => .cont) = fun l e => act (acc ++ l) e := by
      rw [hact, hcb']; cases cb <;> rfl
    have hsome : cb'.isSome = cb.isSome := by rw [hcb']; cases cb <;> rfl
    obtain ⟨r1, hr1, hinv1, hspec1⟩ := iterOp_spec hv (mem i) now cb' (h i hi)
    rw [hr1]
    simp only [Out.bind]
    have hA := h.put (i := i) hinv1
    -- what the first shard did, on the dictionary
    have hfirst : r1.sh.map.ovf = false → (shs i).map.ovf = false ∧ ∀ st, R c n now shs st → ∃ new : List Ent,
        (r1.seen = if cb.isSome then new else []) ∧
        (∀ e ∈ new, st.dict.get now e.key = some (item e) ∧ shardIdx c n e.key = i) ∧
        r1.status = (if stoppedBy act acc new then .canceled else .finished) ∧
        (r1.status = .finished → ∀ k it, shardIdx c n k = i → st.dict.get now k = some it → (k, it) ∈ new.map kv) ∧
        R c n now (update shs i r1.sh) ⟨dropKeys st.dict ((if cb.isSome then dels act acc new else []).map Ent.key), st.tok⟩ := by
      intro ho
      obtain ⟨ho', hsp⟩ := hspec1 ho
      refine ⟨ho', ?_⟩
      intro st hR
      obtain ⟨p, hp, hpc, hpv⟩ := hR i hi
      obtain ⟨q, seen, stopped, hq, hqc, hscan, hst, hse⟩ := hsp p hp
      rw [hact'] at hscan
      have hlive : ∀ e ∈ seen, st.dict.get now e.key = some (item e) ∧ shardIdx c n e.key = i := by
        intro e he
        obtain ⟨ha, hf⟩ := hscan.live e he
        have hk := hpv.1 _ _ hf
        refine ⟨?_, hk⟩
        rw [hpv.get hk]
        unfold PS.live
        simp only [hf]
        simp [ha]
      have hstop : stopped = stoppedBy act acc seen := by
        rw [hscan.stop, stoppedBy_shift, List.append_nil]
      have hdl : dels (fun l e => act (acc ++ l) e) [] seen = if cb.isSome then dels act acc seen else [] := by
        rw [dels_shift, List.append_nil]
        split
        · rfl
        · rename_i hcb
          have : cb = none := by simpa using hcb
          rw [hact, this]
          exact dels_cont _ _
      refine ⟨seen, by rw [hse, hsome], hlive, by rw [hst, hstop], ?_, ?_⟩
      · intro hfin k it hk hget
        have hsf : stopped = false := by
          rw [hst] at hfin
          by_contra hc
          simp [show stopped = true by simpa using hc] at hfin
        rw [hpv.get hk] at hget
        unfold PS.live at hget
        simp only [] at hget
        cases hf : p.f k with
        | none => rw [hf] at hget; simp at hget
        | some e =>
          rw [hf] at hget
          simp only [] at hget
          split at hget
          · rename_i ha
            simp only [Option.map_some, Option.some.injEq] at hget
            have hke := ((hp.1 _ _).1 hf).2
            refine List.mem_map.2 ⟨e, (hscan.all hsf k e hf).1 ha, ?_⟩
            unfold kv
            rw [hget, hke]
          · simp at hget
      · have hvs := hpv.scan hscan
        rw [hdl] at hvs
        refine hR.put (le_refl _) hq (by rw [hqc, hpc]) hvs (fun _ _ => rfl) ?_
        intro k hk
        apply dropKeys_of_not_mem
        intro hm
        obtain ⟨e, he, rfl⟩ := List.mem_map.1 hm
        split at he
        · exact hk (hlive e (dels_mem _ _ _ he)).2
        · simp at he
    by_cases hst : r1.status = .finished
    · rw [if_neg (by simp [hst])]
      obtain ⟨r2, hr2, hA2, hspec2⟩ := ih (acc ++ r1.seen) (update shs i r1.sh) hnd' (fun j hj => hlt j (by simp [hj])) hA
      rw [hr2]
      simp only []
      refine ⟨_, rfl, hA2, ?_⟩
      intro hnw
      obtain ⟨hnw1, hsp2⟩ := hspec2 hnw
      have hnw0 := hnw1.back (fun ho => (hfirst ho).1)
      refine ⟨hnw0, ?_⟩
      intro st hR
      obtain ⟨new1, a1, a2, a3, a4, a5⟩ := (hfirst (hnw1.self hi)).2 st hR
      obtain ⟨new2, b1, b2, b3, b4, b5, b6⟩ := hsp2 _ a5
      have hdrop : ∀ k, (dropKeys st.dict ((if cb.isSome then dels act acc new1 else []).map Ent.key)).get now k =
          if k ∈ (if cb.isSome then dels act acc new1 else []).map Ent.key then none else st.dict.get now k := by
        intro k
        unfold dropKeys Spec.Dict.get
        generalize (if cb.isSome then dels act acc new1 else []).map Ent.key = ks
        simp only []
        by_cases hk : k ∈ ks
        · rw [if_pos hk, if_pos hk]; rfl
        · rw [if_neg hk, if_neg hk]
      have hns1 : stoppedBy act acc new1 = false := by
        rw [a3] at hst
        by_contra hc
        simp [show stoppedBy act acc new1 = true by simpa using hc] at hst
      refine ⟨new1 ++ new2, ?_, ?_, ?_, ?_, ?_, ?_⟩
      · rw [b1, a1]
        split
        · rw [List.append_assoc]
        · simp
      · intro e he
        rcases List.mem_append.1 he with he | he
        · obtain ⟨x1, x2⟩ := a2 e he
          exact ⟨x1, by rw [x2]; simp⟩
        · obtain ⟨x1, x2⟩ := b2 e he
          rw [hdrop] at x1
          generalize (if cb.isSome then dels act acc new1 else []).map Ent.key = ks at x1
          split at x1
          · simp at x1
          · exact ⟨x1, by simp [x2]⟩
      · intro hc
        rw [b3 hc, a1, if_pos hc, stoppedBy_append, hns1, Bool.false_or]
      · intro hc; exact b4 hc
      · intro hfin k it hk hget
        rw [List.map_append]
        rcases List.mem_cons.1 hk with hk | hk
        · exact List.mem_append.2 (Or.inl (a4 hst k it hk hget))
        · refine List.mem_append.2 (Or.inr (b5 hfin k it hk ?_))
          rw [hdrop, if_neg]
          · exact hget
          · intro hm
            obtain ⟨e, he, rfl⟩ := List.mem_map.1 hm
            split at he
            · have := (a2 e (dels_mem _ _ _ he)).2
              rw [this] at hk
              exact hni hk
            · simp at he
      · have : (⟨dropKeys st.dict ((if cb.isSome then dels act acc (new1 ++ new2) else []).map Ent.key), st.tok⟩ : Spec.State) =
            ⟨dropKeys (dropKeys st.dict ((if cb.isSome then dels act acc new1 else []).map Ent.key))
              ((if cb.isSome then dels act (acc ++ r1.seen) new2 else []).map Ent.key), st.tok⟩ := by
          congr 1
          funext k
          unfold dropKeys
          by_cases hc : cb.isSome = true
          · simp only [hc, if_true] at a1 ⊢
            rw [a1, dels_append, List.map_append]
            by_cases h1 : k ∈ (dels act acc new1).map Ent.key
            · rw [if_pos (List.mem_append.2 (Or.inl h1)), if_pos h1, ite_self]
            · by_cases h2 : k ∈ (dels act (acc ++ new1) new2).map Ent.key
              · rw [if_pos (List.mem_append.2 (Or.inr h2)), if_pos h2]
              · rw [if_neg (by intro hm; rcases List.mem_append.1 hm with hm | hm; exact h1 hm; exact h2 hm), if_neg h2, if_neg h1]
          · simp [hc]
        rw [this]; exact b6
    · rw [if_pos hst]
      refine ⟨_, rfl, hA, ?_⟩
      intro hnw
      have hnw0 := hnw.back (fun ho => (hfirst ho).1)
      refine ⟨hnw0, ?_⟩
      intro st hR
      obtain ⟨new1, a1, a2, a3, a4, a5⟩ := (hfirst (hnw.self hi)).2 st hR
      refine ⟨new1, ?_, ?_, ?_, ?_, ?_, a5⟩
      · simp only [a1]; split <;> simp
      · intro e he
        obtain ⟨x1, x2⟩ := a2 e he
        exact ⟨x1, by rw [x2]; simp⟩
      · intro hc; exact a3
      · intro hc
        exfalso
        apply hst
        rw [a3, hact, hc]
        simp [stoppedBy_cont]
      · intro hfin; exact absurd hfin hst

theorem sweepShards_refines {c : Ctx} (hv : c.Valid) {n : Nat} (mem : Nat → Mem) (now : Int)
    (is : List Nat) (shs : Shards) (hlt : ∀ i ∈ is, i < n) (h : AllInv c n shs) :
    ∃ r sw kp, sweepShards c mem now is shs = .val (r, sw, kp) ∧ r.status = .finished ∧ r.seen = [] ∧
      AllInv c n r.shs ∧ (NoWrap n r.shs → NoWrap n shs ∧ ∀ st, R c n now shs st → R c n now r.shs st) := by
  induction is generalizing shs with
  | nil => exact ⟨_, _, _, rfl, rfl, rfl, h, fun hnw => ⟨hnw, fun st hR => hR⟩⟩
  | cons i is ih =>
    have hi : i < n := hlt i (by simp)
    unfold sweepShards
    obtain ⟨r1, sw, kp, hr1, hinv1, hspec1⟩ := sweepOp_spec hv (mem i) now (h i hi)
    rw [hr1]
    simp only [Out.bind]
    obtain ⟨r2, sw2, kp2, hr2, hst, hse, hA2, hspec2⟩ := ih (update shs i r1.sh) (fun j hj => hlt j (by simp [hj])) (h.put hinv1)
    rw [hr2]
    refine ⟨_, _, _, rfl, hst, hse, hA2, ?_⟩
    intro hnw
    obtain ⟨hnw1, hsp2⟩ := hspec2 hnw
    refine ⟨hnw1.back (fun ho => (hspec1 ho).1), ?_⟩
    intro st hR
    apply hsp2
    obtain ⟨_, _, hsp⟩ := hspec1 (hnw1.self hi)
    obtain ⟨p, hp, hpc, hpv⟩ := hR i hi
    obtain ⟨q, seen, hq, hqc, hscan, _, _⟩ := hsp p hp
    have hvs := hpv.scan hscan
    rw [dels_cont] at hvs
    refine hR.put (le_refl _) hq (by rw [hqc, hpc]) ?_ (fun _ _ => rfl) (fun _ _ => rfl)
    simpa [dropKeys_nil] using hvs

theorem clearShards_refines {c : Ctx} (hv : c.Valid) {n : Nat} (mem : Nat → Mem) (now : Int)
    (is : List Nat) (shs : Shards) (hlt : ∀ i ∈ is, i < n) (h : AllInv c n shs) (hmem : ∀ i, (mem i).tbl = true) :
    ∃ r, clearShards c mem now is shs = .val r ∧ r.status = .finished ∧ r.seen = [] ∧
      AllInv c n r.shs ∧ (NoWrap n r.shs → NoWrap n shs ∧ ∀ st, R c n now shs st →
        R c n now r.shs ⟨fun k => if shardIdx c n k ∈ is then none else st.dict k, st.tok⟩) := by
  induction is generalizing shs with
  | nil => exact ⟨_, rfl, rfl, rfl, h, fun hnw => ⟨hnw, fun st hR => by simpa using hR⟩⟩
  | cons i is ih =>
    have hi : i < n := hlt i (by simp)
    unfold clearShards
    obtain ⟨r1, hr1, hinv1, _, _, hspec1⟩ := clearOp_spec hv (mem i) now (h i hi) (hmem i)
    rw [hr1]
    simp only [Out.bind]
    obtain ⟨r2, hr2, hst, hse, hA2, hspec2⟩ := ih (update shs i r1.sh) (fun j hj => hlt j (by simp [hj])) (h.put hinv1)
    rw [hr2]
    refine ⟨_, rfl, hst, hse, hA2, ?_⟩
    intro hnw
    obtain ⟨hnw1, hsp2⟩ := hspec2 hnw
    refine ⟨hnw1.back (fun ho => (hspec1 ho).1), ?_⟩
    intro st hR
    obtain ⟨p, hp, hpc, hpv⟩ := hR i hi
    obtain ⟨hq, _⟩ := (hspec1 (hnw1.self hi)).2 p hp
    have h1 : R c n now (update shs i r1.sh) ⟨fun k => if shardIdx c n k = i then none else st.dict k, st.tok⟩ := by
      refine hR.put (le_refl _) hq hpc ?_ (fun _ _ => rfl) (fun k hk => by simp [hk])
      refine ⟨by simp, ?_⟩
      intro k hk t ht
      unfold Spec.Dict.get
      simp [hk]
    have h2 := hsp2 _ h1
    have : (fun k => if shardIdx c n k ∈ i :: is then none else st.dict k) =
        fun k => if shardIdx c n k ∈ is then none else if shardIdx c n k = i then none else st.dict k := by
      funext k
      by_cases hk : shardIdx c n k = i <;> by_cases hk2 : shardIdx c n k ∈ is <;> simp [hk, hk2]
    rw [this]
    exact h2

theorem scope_nodup (n : Nat) (one : Option Int) : (scope n one).Nodup := by
  cases one with
  | none => exact List.nodup_range
  | some i => simp only [scope]; split <;> simp

theorem scope_lt (n : Nat) (one : Option Int) : ∀ i ∈ scope n one, i < n := by
  intro i hi
  cases one with
  | none => exact List.mem_range.1 hi
  | some j =>
    simp only [scope] at hi
    split at hi
    · simp at hi
    · simp at hi; omega

theorem mem_scope (c : Ctx) {n : Nat} (hn : 0 < n) (one : Option Int) (k : Bytes) :
    shardIdx c n k ∈ scope n one ↔ Spec.addressed (shardIdx c n) one k := by
  have hlt := shardIdx_lt c hn k
  cases one with
  | none => simp [scope, Spec.addressed, hlt]
  | some j =>
    simp only [scope, Spec.addressed]
    constructor
    · intro hm i hi
      simp at hi
      subst hi
      split at hm
      · simp at hm
      · simp at hm; omega
    · intro h
      have := h j rfl
      split
      · omega
      · simp; omega

/-! ### Any call -/

/-- What a call needs: a positive 64-bit time and time to live; the entry allocation of a store and
the table allocation of a clear must succeed (otherwise the code has undefined behaviour, see
`Verif.Cache.Alloc`). -/
def CallOk (mem : Nat → Mem) (oom : Bool) (now : Int) (call : Spec.Call) : Prop :=
  0 < now ∧ Num.IsI64 now ∧ (oom = false → ∀ i, mem i = ⟨true, true, true⟩) ∧
  match call with
  | .store a => Num.IsI64 a.ttl ∧ ∀ i, (mem i).ent = true
  | .clear _ => ∀ i, (mem i).tbl = true
  | _ => True

theorem exec_refines {c : Ctx} (hv : c.Valid) {n : Nat} (hn : 0 < n) (mem : Nat → Mem) (oom : Bool) (now : Int)
    (call : Spec.Call) {shs : Shards} (h : AllInv c n shs) (hok : CallOk mem oom now call) :
    Refines c n oom now call shs (exec c n mem now (toOp call) shs) := by
  obtain ⟨h0, h1, h2, h3⟩ := hok
  cases call with
  | load k nt cb => exact load_refines hv hn mem oom now k nt cb h h2
  | store a => exact store_refines hv hn mem oom now a h h2 h3.2 h0 h1 h3.1
  | delete k ask => exact delete_refines hv hn mem oom now k ask h
  | iter one cb =>
    left
    obtain ⟨r, hr, hA, hspec⟩ := iterShards_refines hv mem now (cb.map iterCb) (scope n one) [] shs
      (scope_nodup n one) (scope_lt n one) h
    refine ⟨r, hr, hA, ?_⟩
    intro hnw
    obtain ⟨hnw0, hsp⟩ := hspec hnw
    refine ⟨hnw0, ?_⟩
    intro now0 st hle hR
    obtain ⟨new, a1, a2, a3, a4, a5, a6⟩ := hsp st (hR.later hle)
    refine ⟨_, a6, ?_⟩
    unfold Spec.Step
    cases cb with
    | none =>
      simp only [Option.map_none, Option.isSome_none, Bool.false_eq_true, if_false] at *
      refine ⟨?_, ?_⟩
      · unfold reply; rw [a4 trivial, a1]; rfl
      · simp [dropKeys_nil]
    | some f =>
      simp only [Option.map_some, Option.isSome_some, if_true, List.nil_append, Option.getD_some] at *
      have a3 := a3 trivial
      have hrs : (reply r).shown = new.map kv := by unfold reply; rw [a1]
      refine ⟨?_, ?_, ?_, ?_⟩
      · intro x hx
        rw [hrs] at hx
        obtain ⟨e, he, rfl⟩ := List.mem_map.1 hx
        obtain ⟨b1, b2⟩ := a2 e he
        exact ⟨b1, (mem_scope c hn one _).1 b2⟩
      · rw [hrs]
        unfold reply
        rw [a3]
        have := stoppedBy_iterCb f new []
        rw [List.map_nil] at this
        rw [← this]
        simp only [Option.map_some, Option.getD_some]
        split <;> rfl
      · intro hfin k it hget hadd
        rw [hrs]
        apply a5 _ k it ((mem_scope c hn one k).2 hadd) hget
        unfold reply at hfin
        simp only [] at hfin
        rw [a3] at hfin ⊢
        split at hfin
        · simp [toStatus] at hfin
        · rename_i hns; rw [if_neg hns]
      · rw [hrs, dels_iterCb]
        rfl
  | sweep one =>
    left
    obtain ⟨r, sw, kp, hr, hst, hse, hA, hspec⟩ := sweepShards_refines hv mem now (scope n one) shs (scope_lt n one) h
    refine ⟨r, by simp only [toOp, exec, hr, Out.bind], hA, ?_⟩
    intro hnw
    obtain ⟨hnw0, hsp⟩ := hspec hnw
    refine ⟨hnw0, ?_⟩
    intro now0 st hle hR
    refine ⟨st, hsp st (hR.later hle), ?_⟩
    unfold Spec.Step reply
    rw [hst, hse]
    exact ⟨rfl, rfl⟩
  | clear one =>
    left
    obtain ⟨r, hr, hst, hse, hA, hspec⟩ := clearShards_refines hv mem now (scope n one) shs (scope_lt n one) h h3
    refine ⟨r, hr, hA, ?_⟩
    intro hnw
    obtain ⟨hnw0, hsp⟩ := hspec hnw
    refine ⟨hnw0, ?_⟩
    intro now0 st hle hR
    refine ⟨_, hsp st (hR.later hle), ?_⟩
    unfold Spec.Step reply
    rw [hst, hse]
    refine ⟨rfl, ?_⟩
    congr 1
    funext k
    by_cases hk : shardIdx c n k ∈ scope n one
    · rw [if_pos hk, if_pos ((mem_scope c hn one k).1 hk)]
    · rw [if_neg hk, if_neg (fun hc => hk ((mem_scope c hn one k).2 hc))]

end Verif.Cache
