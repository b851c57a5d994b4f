import Mathlib.Tactic.Common
import Verif.Cache.Refine

/-!
Clocks of several threads: a call reads its clock before it takes the lock, so that the times of the calls need not be in the order of the calls.  What a call
leaves behind is known exactly, also for times before that of the call: it throws away its key if that has expired, and nothing else.
-/

namespace Verif.Cache

open Verif.Map Verif.Shard Function

/-- The state without the key, if that has expired. -/
def forget (now : Int) (k : Bytes) (st : Spec.State) : Spec.State := ⟨update st.dict k (st.dict.get now k), st.tok⟩

theorem forget_live {now : Int} {k : Bytes} {st : Spec.State} {it : Spec.Item} (h : st.dict.get now k = some it) : forget now k st = st := by
  have h' := h
  unfold Spec.Dict.get at h'
  rw [Option.filter_eq_some_iff] at h'
  unfold forget
  rw [h, ← h'.1, update_eq_self]

theorem forget_get (now : Int) (k : Bytes) (st : Spec.State) : (forget now k st).dict.get now k = st.dict.get now k := by
  unfold forget Spec.Dict.get
  simp only [update_self]
  cases st.dict k with
  | none => rfl
  | some it => by_cases h : it.visible now <;> simp [h]

theorem forget_forget (now : Int) (k : Bytes) (st : Spec.State) : forget now k (forget now k st) = forget now k st := by
  have h := forget_get now k st
  unfold forget at h ⊢
  simp only [h, update_idem]

/-- Outcome of a call with enough memory; what is there is known from `t0` on, which may be long before the call. -/
def RefinesAt (c : Ctx) (n : Nat) (now : Int) (key : Bytes) (call : Spec.Call) (shs : Shards) (o : Out CRes) : Prop :=
  (∃ r, o = .val r ∧ AllInv c n r.shs ∧ (NoWrap n r.shs → NoWrap n shs ∧
    ∀ t0 st, t0 ≤ now → R c n t0 shs st → ∃ st', R c n t0 r.shs st' ∧
      Spec.Step ⟨c.usecas, c.noevict, shardIdx c n⟩ false now call (forget now key st) (reply r) st')) ∨
  o = .abort true

theorem load_refinesAt {c : Ctx} (hv : c.Valid) {n : Nat} (hn : 0 < n) (mem : Nat → Mem) (now : Int)
    (key : Bytes) (nt : Bool) (cb : Option (Spec.Item → Option Spec.NewVal)) {shs : Shards} (h : AllInv c n shs)
    (hmem : ∀ i, mem i = ⟨true, true, true⟩) :
    RefinesAt c n now key (.load key nt cb) shs (exec c n mem now (.load key (loadOpts nt cb)) shs) := by
  left
  have hin := shardIdx_lt c hn key
  set i := shardIdx c n key with hi
  obtain ⟨r, hr, hinv, hov, hspec⟩ := loadOp_spec hv (mem i) now key (loadOpts nt cb) (h i hin)
  unfold exec onKey
  simp only [← hi, hr, Out.bind]
  refine ⟨_, rfl, h.put hinv, ?_⟩
  intro hnw
  have hnw0 := hnw.back (fun ho => by rw [← hov]; exact ho)
  refine ⟨hnw0, ?_⟩
  intro t0 st hle hR
  obtain ⟨p, hp, hpc, hpv⟩ := hR i hin
  obtain ⟨hs1, hs2, hs3, hs4⟩ := hspec (hnw0 i hin) p hp
  have hget := (hpv.later hle).get (k := key) hi.symm
  rw [live_cas] at hget
  simp only [reply, hs2, hs4]
  have hdk : ∀ (x : Option Spec.Item) (k : Bytes), shardIdx c n k ≠ i → update st.dict key x k = st.dict k :=
    fun x k hk => update_of_ne (by rintro rfl; exact hk hi.symm) _ _
  unfold pLoad at hs1 ⊢
  unfold PS.live at hget
  unfold Spec.Step
  simp only [forget_get]
  cases hf : p.f key with
  | none =>
    rw [hf] at hs1 hget
    simp only [] at hs1 hget
    rw [hget]
    refine ⟨forget now key st, hR.put (le_refl _) hs1 hpc ?_ (fun _ _ => rfl) (hdk _), by simp [toStatus]⟩
    have := hpv.set hi.symm (x := none) (y := none) (fun t ht => rfl)
    unfold forget
    rw [hget]
    rwa [← hf, update_eq_self] at this
  | some e =>
    rw [hf] at hs1 hget
    simp only [] at hs1 hget
    by_cases ha : e.alive now = true
    · simp only [ha, if_true] at hs1 hget ⊢
      rw [forget_live hget, hget]
      simp only [Option.map_some]
      set e1 := (if (loadOpts nt cb).notouch then e else { e with time := now }) with he1
      have hie : item e1 = item e := by rw [he1]; split <;> rfl
      have hke : e1.key = key := by
        have := ((hp.1 _ _).1 hf).2
        rw [he1]; split <;> simpa using this
      have hkv : kv e1 = (key, item e) := by unfold kv; rw [hke, hie]
      have hsame : VR (shardIdx c n) i t0 (update p.f key (some e1)) st.dict := by
        apply hpv.same hi.symm
        intro t ht
        rw [filter_item, hf, filter_item, hie]
      cases cb with
      | none =>
        simp only [loadOpts, Option.map_none] at hs1 ⊢
        refine ⟨st, hR.put (le_refl _) hs1 hpc hsame (fun _ _ => rfl) (fun _ _ => rfl), ?_⟩
        simp [toStatus]
      | some f =>
        simp only [loadOpts, Option.map_some] at hs1 ⊢
        rw [hie] at hs1 ⊢
        cases hfi : f (item e) with
        | none =>
          rw [hfi] at hs1
          simp only [Option.map_none] at hs1 ⊢
          refine ⟨st, hR.put (le_refl _) hs1 hpc hsame (fun _ _ => rfl) (fun _ _ => rfl), ?_⟩
          simp [toStatus, hkv]
        | some u =>
          rw [hfi] at hs1
          simp only [Option.map_some] at hs1 ⊢
          have hm : (mem i).ent = true := by rw [hmem]
          simp only [hm, if_true] at hs1 ⊢
          refine ⟨⟨update st.dict key (some (item (mkEnt c key u.value u.expires u.flags (p.cas + 1) now))),
            update st.tok i (st.tok i + 1)⟩, ?_, ?_⟩
          · refine hR.put (le_refl _) hs1 (by simp [hpc]) (hpv.set hi.symm (fun t ht => filter_item _ t)) ?_ (hdk _)
            intro j hj; exact update_of_ne hj _ _
          · left
            rw [← hi]; simp [toStatus, hkv, item, mkEnt, Spec.normExp, hpc]
    · simp only [ha, if_false, Bool.false_eq_true] at hs1 hget ⊢
      rw [hget]
      refine ⟨forget now key st, hR.put (le_refl _) hs1 hpc ?_ (fun _ _ => rfl) (hdk _), by simp [toStatus]⟩
      unfold forget
      rw [hget]
      exact hpv.set hi.symm (fun t ht => rfl)

theorem delete_refinesAt {c : Ctx} (hv : c.Valid) {n : Nat} (hn : 0 < n) (mem : Nat → Mem) (now : Int)
    (key : Bytes) {shs : Shards} (h : AllInv c n shs) :
    RefinesAt c n now key (.delete key none) shs (exec c n mem now (.delete key none) shs) := by
  have hin := shardIdx_lt c hn key
  set i := shardIdx c n key with hi
  unfold exec onKey
  simp only [← hi]
  rcases deleteOp_spec hv (mem i) now key none (h i hin) with ⟨r, hr, hinv, hspec⟩ | hab
  swap
  · right; rw [hab]; rfl
  left
  simp only [hr, Out.bind]
  refine ⟨_, rfl, h.put hinv, ?_⟩
  intro hnw
  have hsp := hspec (hnw.self hin)
  have hnw0 := hnw.back (fun ho => (hspec ho).1)
  refine ⟨hnw0, ?_⟩
  intro t0 st hle hR
  obtain ⟨p, hp, hpc, hpv⟩ := hR i hin
  obtain ⟨hs1, hs2, hs3, hs4⟩ := hsp.2 p hp
  have hget := (hpv.later hle).get (k := key) hi.symm
  rw [live_cas] at hget
  simp only [reply, hs2, hs4]
  have hdk : ∀ (x : Option Spec.Item) (k : Bytes), shardIdx c n k ≠ i → update st.dict key x k = st.dict k :=
    fun x k hk => update_of_ne (by rintro rfl; exact hk hi.symm) _ _
  unfold pDelete at hs1 ⊢
  unfold PS.live at hget
  unfold Spec.Step
  simp only [forget_get]
  cases hf : p.f key with
  | none =>
    rw [hf] at hs1 hget
    simp only [] at hs1 hget
    rw [hget]
    refine ⟨forget now key st, hR.put (le_refl _) hs1 hpc ?_ (fun _ _ => rfl) (hdk _), by simp [toStatus]⟩
    have := hpv.set hi.symm (x := none) (y := none) (fun t ht => rfl)
    unfold forget
    rw [hget]
    rwa [← hf, update_eq_self] at this
  | some e =>
    rw [hf] at hs1 hget
    simp only [] at hs1 hget
    by_cases ha : e.alive now = true
    · simp only [ha, if_true] at hs1 hget ⊢
      rw [forget_live hget, hget]
      simp only [Option.map_some, refuses, shown] at hs1 ⊢
      refine ⟨⟨update st.dict key none, st.tok⟩, hR.put (le_refl _) hs1 hpc (hpv.set hi.symm (fun t ht => rfl)) (fun _ _ => rfl) (hdk _), ?_⟩
      simp [toStatus]
    · simp only [ha, if_false, Bool.false_eq_true] at hs1 hget ⊢
      rw [hget]
      refine ⟨forget now key st, hR.put (le_refl _) hs1 hpc ?_ (fun _ _ => rfl) (hdk _), by simp [toStatus]⟩
      unfold forget
      rw [hget]
      exact hpv.set hi.symm (fun t ht => rfl)

theorem store_refinesAt {c : Ctx} (hv : c.Valid) {n : Nat} (hn : 0 < n) (mem : Nat → Mem) (now : Int)
    (a : Spec.StoreArgs) {shs : Shards} (h : AllInv c n shs)
    (hmem : ∀ i, mem i = ⟨true, true, true⟩) (hlow : a.lowmem = false) (h0 : 0 < now) (h1 : Num.IsI64 now) (h2 : Num.IsI64 a.ttl) :
    RefinesAt c n now a.key (.store a) shs (exec c n mem now (.store a.key a.val (storeOpts a)) shs) := by
  have hin := shardIdx_lt c hn a.key
  set i := shardIdx c n a.key with hi
  unfold exec onKey
  simp only [← hi]
  rcases storeOp_spec hv (mem i) now a.key a.val (storeOpts a) (h i hin) (reqExpires_val h0 h1 h2) (by rw [hmem]) with
    ⟨r, hr, hinv, _, hspec⟩ | hab
  swap
  · right; rw [hab]; rfl
  left
  simp only [hr, Out.bind]
  refine ⟨_, rfl, h.put hinv, ?_⟩
  intro hnw
  have hsp := hspec (hnw.self hin)
  have hnw0 := hnw.back (fun ho => (hspec ho).1)
  refine ⟨hnw0, ?_⟩
  intro t0 st hle hR
  obtain ⟨p, hp, hpc, hpv⟩ := hR i hin
  obtain ⟨q, hq1, hq2, hq3, hq4, hq5⟩ := hsp.2 p hp
  have hget := (hpv.later hle).get (k := a.key) hi.symm
  rw [live_cas] at hget
  simp only [reply, hq2, hq4]
  have hdk : ∀ (x : Option Spec.Item) (k : Bytes), shardIdx c n k ≠ i → update st.dict a.key x k = st.dict k :=
    fun x k hk => update_of_ne (by rintro rfl; exact hk hi.symm) _ _
  have htok : ∀ j, j ≠ i → update st.tok i (st.tok i + 1) j = st.tok j := fun j hj => update_of_ne hj _ _
  unfold Spec.Step
  simp only [← hi, forget_get]
  have hsame : q.ps.f = p.f → q.ps.cas = p.cas + 1 →
      R c n t0 (update shs i r.sh) ⟨st.dict, update st.tok i (st.tok i + 1)⟩ := by
    intro hqf hqc
    refine hR.put (le_refl _) hq1 (by rw [hqc]; simp [hpc]) ?_ htok (fun _ _ => rfl)
    rw [hqf]; exact hpv
  have hnm : ¬ storeNomem c (mem i) (storeOpts a) (shs i) = true := by
    unfold storeNomem
    rw [show (storeOpts a).lowmem = false from hlow, hmem]
    simp
  rw [if_neg hnm] at hq5
  have hlm : ¬ (a.lowmem && c.noevict) = true := by rw [hlow]; simp
  simp only [if_neg hlm]
  unfold PStore at hq5
  simp only [] at hq5
  cases hl : p.live now a.key with
  | some old =>
    rw [hl] at hq5 hget
    simp only [] at hq5
    rw [forget_live hget, hget]
    simp only [Option.map_some]
    have hfk : p.f a.key = some old ∧ old.alive now = true := by
      unfold PS.live at hl
      cases hf : p.f a.key with
      | none => rw [hf] at hl; simp at hl
      | some e =>
        rw [hf] at hl
        simp only [] at hl
        split at hl
        · simp at hl; subst hl; exact ⟨rfl, by assumption⟩
        · simp at hl
    have hke : old.key = a.key := ((hp.1 _ _).1 hfk.1).2
    have hpb : (putBack c (storeOpts a) old = true) ↔
        (if a.casop then c.usecas = false ∨ a.cas ≠ (item old).cas else a.nx = true) := by
      unfold putBack storeOpts item
      simp only []
      cases a.casop <;> cases c.usecas <;> simp
    have href : (refuses (storeOpts a).entry old = true) ↔ a.ask.map (· (item old)) = some false := by
      unfold storeOpts
      cases a.ask <;> simp [refuses]
    have hsh : (shown (storeOpts a).entry old).map kv = if a.ask.isSome then [(a.key, item old)] else [] := by
      unfold storeOpts
      cases a.ask <;> simp [shown, kv, hke]
    by_cases h3 : putBack c (storeOpts a) old = true
    · rw [if_pos h3] at hq5
      subst hq5
      refine ⟨_, hsame rfl rfl, Or.inr ?_⟩
      rw [if_pos (hpb.1 h3)]
      simp [toStatus]
    · rw [if_neg h3] at hq5
      by_cases h4 : refuses (storeOpts a).entry old = true
      · rw [if_pos h4] at hq5
        subst hq5
        refine ⟨_, hsame rfl rfl, Or.inr ?_⟩
        rw [if_neg (fun hc => h3 (hpb.2 hc)), if_pos (href.1 h4)]
        rw [hsh]; exact ⟨rfl, rfl⟩
      · rw [if_neg h4] at hq5
        subst hq5
        refine ⟨⟨update st.dict a.key (some (item (p.newEnt c now a.key a.val (storeOpts a) (a.asked now)))),
          update st.tok i (st.tok i + 1)⟩, ?_, Or.inr ?_⟩
        · exact hR.put (le_refl _) hq1 (by simp [hpc]) (hpv.set hi.symm (fun t ht => filter_item _ t)) htok (hdk _)
        · rw [if_neg (fun hc => h3 (hpb.2 hc)), if_neg (fun hc => h4 (href.2 hc)), hsh]
          refine ⟨rfl, ?_⟩
          unfold PS.newEnt PS.expiry
          rw [hl]
          simp only [item, mkEnt, Spec.normExp, hpc, storeOpts, Option.map_some, Option.getD_some, update_self]
          try rfl
  | none =>
    rw [hl] at hq5 hget
    simp only [] at hq5
    have hfg : forget now a.key st = ⟨update st.dict a.key none, st.tok⟩ := by unfold forget; rw [hget]; rfl
    rw [hfg, hget]
    simp only [Option.map_none, update_idem]
    by_cases hx : a.xx ∨ a.casop
    · rw [if_pos (by simpa [storeOpts] using hx)] at hq5
      subst hq5
      refine ⟨⟨update st.dict a.key none, update st.tok i (st.tok i + 1)⟩, ?_, Or.inr ?_⟩
      · exact hR.put (le_refl _) hq1 (by simp [hpc]) (hpv.set hi.symm (fun t ht => rfl)) htok (hdk _)
      · rw [if_pos hx]; simp [toStatus]
    · rw [if_neg (by simpa [storeOpts] using hx)] at hq5
      have hnew : item (p.newEnt c now a.key a.val (storeOpts a) (a.asked now)) =
          ⟨a.val, Spec.normExp (a.asked now), a.flags, if c.usecas then update st.tok i (st.tok i + 1) i else 0⟩ := by
        have hexp : p.expiry now a.key (storeOpts a) (a.asked now) = a.asked now := by
          unfold PS.expiry
          rw [hl]
          split <;> rfl
        unfold PS.newEnt
        rw [hexp, hpc]
        simp only [item, mkEnt, Spec.normExp, update_self]
        rfl
      rcases hq5 with hq5 | ⟨hlow', _⟩
      · subst hq5
        refine ⟨⟨update st.dict a.key (some (item (p.newEnt c now a.key a.val (storeOpts a) (a.asked now)))),
          update st.tok i (st.tok i + 1)⟩, ?_, Or.inr ?_⟩
        · exact hR.put (le_refl _) hq1 (by simp [hpc]) (hpv.set hi.symm (fun t ht => filter_item _ t)) htok (hdk _)
        · rw [if_neg hx]
          refine ⟨by simp [toStatus], Or.inl ?_⟩
          rw [hnew]
      · exact absurd (show (storeOpts a).lowmem = false from hlow) (by rw [hlow']; simp)

end Verif.Cache
