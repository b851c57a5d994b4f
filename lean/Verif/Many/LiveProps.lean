import Mathlib.Tactic.Common
import Verif.Many.Props
import Verif.Many.LiveModel

/-!
C104: SAVE, KEYS, sweeps and flushes while clients work.
-/

namespace Verif.Many

open Verif.Num Verif.Resp Verif.Cmd Verif.Cache Verif.Shard Verif.Map Verif.Wire Function

/-! ### One chore -/

/-- The dictionary after a chore. -/
def dictDone (grp : Bytes → Nat) (x : Chore) (d : Spec.Dict) : Spec.Dict := fun k =>
  if grp k = x.shard then (if x.kind = .clear then none else d.get x.now k) else d k

/-- What is shown of a dictionary. -/
def DictShows (grp : Bytes → Nat) (x : Chore) (d : Spec.Dict) (l : List (Bytes × Spec.Item)) : Prop :=
  (∀ y ∈ l, d.get x.now y.1 = some y.2 ∧ grp y.1 = x.shard) ∧ ∀ k it, d.get x.now k = some it → grp k = x.shard → (k, it) ∈ l

theorem scan_rest {c : Ctx} {n : Nat} {x : Chore} (hx : x.kind ≠ .clear) {t0 : Int} (hle : t0 ≤ x.now) {p q : PS} {d : Spec.Dict} {evs : List Ev} {seen : List Ent} {s : Sh} (hp : SRep s p)
    (hv : VR (shardIdx c n) x.shard t0 p.f d) (hs : PScan x.now (fun _ _ => .cont) p q.f evs seen false) :
    VR (shardIdx c n) x.shard t0 q.f (dictDone (shardIdx c n) x d) ∧ DictShows (shardIdx c n) x d (seen.map kv) := by
  have hlater := hv.later hle
  have hafter : ∀ k, q.f k = (p.f k).filter (·.alive x.now) := by
    intro k
    rw [hs.after]
    unfold removed
    cases hf : p.f k with
    | none => split <;> rfl
    | some e =>
      have hke := ((hp.1 _ _).1 hf).2
      cases ha : e.alive x.now with
      | true =>
        rw [if_neg]
        · simp [Option.filter, ha]
        · intro hm
          obtain ⟨e', he', hk⟩ := List.mem_map.1 hm
          obtain ⟨ev, hev, hg⟩ := List.mem_flatMap.1 he'
          rcases hs.kinds ev hev with ⟨e2, rfl, ha2, hf2⟩ | ⟨e2, rfl, ha2, hf2⟩
          · have : e' = e2 := by simpa [Ev.gone] using hg
            subst this
            rw [hk, hf] at hf2
            cases hf2
            rw [ha] at ha2
            cases ha2
          · have hd : e2 ∈ evs.filterMap Ev.deletedEnt := List.mem_filterMap.2 ⟨_, hev, rfl⟩
            rw [hs.dels, dels_cont] at hd
            simp at hd
      | false =>
        rw [if_pos]
        · simp [Option.filter, ha]
        · exact List.mem_map.2 ⟨e, List.mem_flatMap.2 ⟨_, (hs.all rfl k e hf).2 ha, by simp [Ev.gone]⟩, hke⟩
  refine ⟨⟨fun k e he => ?_, fun k hk t ht => ?_⟩, fun y hy => ?_, fun k it hget hk => ?_⟩
  · rw [hafter, Option.filter_eq_some_iff] at he
    exact hv.1 k e he.1
  · rw [hafter]
    unfold dictDone Spec.Dict.get
    beta_reduce
    rw [if_pos hk, if_neg hx]
    have h1 := hlater.2 k hk x.now (le_refl _)
    unfold Spec.Dict.get at h1
    rw [← h1]
    cases p.f k with
    | none => rfl
    | some e =>
      cases ha : e.alive x.now with
      | false => simp [ha, Option.filter]
      | true => cases hb : e.alive t <;> simp [ha, hb, Option.filter, item_visible]
  · obtain ⟨e, he, rfl⟩ := List.mem_map.1 hy
    obtain ⟨ha, hf⟩ := hs.live e he
    have hk := hv.1 _ _ hf
    refine ⟨?_, hk⟩
    have h1 := hlater.2 _ hk x.now (le_refl _)
    rw [hf] at h1
    simpa [Option.filter, ha, kv] using h1.symm
  · have h1 := hlater.2 _ hk x.now (le_refl _)
    rw [hget, Option.map_eq_some_iff] at h1
    obtain ⟨e, he, hit⟩ := h1
    rw [Option.filter_eq_some_iff] at he
    have hke := ((hp.1 _ _).1 he.1).2
    exact List.mem_map.2 ⟨e, (hs.all rfl k e he.1).1 he.2, by unfold kv; rw [hit, hke]⟩

/-- A chore does to the dictionary exactly what it should, from `t0` on. -/
theorem chore_exact {c : Ctx} (hv : c.Valid) {n : Nat} {x : Chore} (hx : x.shard < n) {shs : Shards} (h : AllInv c n shs) :
    ∃ l sh, choreOp c x (shs x.shard) = .val (l, sh) ∧ AllInv c n (update shs x.shard sh) ∧ (NoWrap n (update shs x.shard sh) → NoWrap n shs ∧
      ∀ t0 st, t0 ≤ x.now → R c n t0 shs st → R c n t0 (update shs x.shard sh) ⟨dictDone (shardIdx c n) x st.dict, st.tok⟩ ∧
        (x.kind = .show → DictShows (shardIdx c n) x st.dict l)) := by
  have hother : ∀ (d : Spec.Dict) k, shardIdx c n k ≠ x.shard → dictDone (shardIdx c n) x d k = d k := by
    intro d k hk
    unfold dictDone
    rw [if_neg hk]
  unfold choreOp
  cases hk : x.kind with
  | «show» =>
    obtain ⟨r, hr, hinv, hsp⟩ := iterOp_spec hv ⟨true, true, true⟩ x.now (some fun _ _ => .cont) (h x.shard hx)
    simp only [hr, Out.bind]
    refine ⟨_, _, rfl, h.put hinv, fun hnw => ?_⟩
    obtain ⟨_, hsp⟩ := id hsp (hnw.self hx)
    refine ⟨hnw.back fun ho => (by assumption), fun t0 st hle hR => ?_⟩
    obtain ⟨p, hp, hpc, hpv⟩ := hR x.shard hx
    obtain ⟨q, seen, stopped, hq, hqc, hscan, hst, hse⟩ := hsp p hp
    have hstop : stopped = false := by rw [hscan.stop]; exact stoppedBy_cont _ _
    subst hstop
    obtain ⟨g1, g2⟩ := scan_rest (by rw [hk]; simp) hle hp hpv hscan
    refine ⟨hR.put (le_refl _) hq (by rw [hqc, hpc]) g1 (fun _ _ => rfl) (hother _), fun _ => ?_⟩
    rw [hse]
    exact g2
  | sweep =>
    obtain ⟨r, sw, kp, hr, hinv, hsp⟩ := sweepOp_spec hv ⟨true, true, true⟩ x.now (h x.shard hx)
    simp only [hr, Out.bind]
    refine ⟨_, _, rfl, h.put hinv, fun hnw => ?_⟩
    obtain ⟨_, _, hsp⟩ := id hsp (hnw.self hx)
    refine ⟨hnw.back fun ho => (by assumption), fun t0 st hle hR => ?_⟩
    obtain ⟨p, hp, hpc, hpv⟩ := hR x.shard hx
    obtain ⟨q, seen, hq, hqc, hscan, _⟩ := hsp p hp
    obtain ⟨g1, g2⟩ := scan_rest (by rw [hk]; simp) hle hp hpv hscan
    exact ⟨hR.put (le_refl _) hq (by rw [hqc, hpc]) g1 (fun _ _ => rfl) (hother _), fun hc => by cases hc⟩
  | clear =>
    obtain ⟨r, hr, hinv, _, _, hsp⟩ := clearOp_spec hv ⟨true, true, true⟩ x.now (h x.shard hx) rfl
    simp only [hr, Out.bind]
    refine ⟨_, _, rfl, h.put hinv, fun hnw => ?_⟩
    obtain ⟨_, hsp⟩ := id hsp (hnw.self hx)
    refine ⟨hnw.back fun ho => (by assumption), fun t0 st hle hR => ?_⟩
    obtain ⟨p, hp, hpc, hpv⟩ := hR x.shard hx
    obtain ⟨hq, _⟩ := hsp p hp
    refine ⟨hR.put (le_refl _) hq hpc ⟨by simp, fun k hk' t ht => ?_⟩ (fun _ _ => rfl) (hother _), fun hc => by cases hc⟩
    unfold dictDone Spec.Dict.get
    simp only []
    rw [if_pos hk', if_pos hk]
    rfl

/-- The store does likewise. -/
theorem chore_agrees {t0 : Int} {x : Chore} (hle : t0 ≤ x.now) {d : Spec.Dict} {m : Store} (h : Agrees t0 d m) (grp : Bytes → Nat) :
    Agrees t0 (dictDone grp x d) (choreDone grp x m) := by
  have hsub : ∀ (m : Store) k, Store.see (fun k => m.see x.now k) t0 k = m.see x.now k := by
    intro m k
    have := see_see (m := m) hle k
    unfold dropped at this
    unfold Store.see at this ⊢
    rw [update_self] at this
    exact this
  have e1 : ∀ k, Store.see (choreDone grp x m) t0 k = if grp k = x.shard then (if x.kind = .clear then none else m.see x.now k) else m.see t0 k := by
    intro k
    by_cases hk : grp k = x.shard
    · by_cases hc : x.kind = .clear
      · rw [if_pos hk, if_pos hc]
        unfold Store.see choreDone
        rw [if_pos hk, if_pos hc]
        rfl
      · rw [if_pos hk, if_neg hc, ← hsub m k]
        exact see_congr (by unfold choreDone; rw [if_pos hk, if_neg hc])
    · rw [if_neg hk]
      exact see_congr (by unfold choreDone; rw [if_neg hk])
  have e2 : ∀ k, Store.see (fun k => (dictDone grp x d k).map kept) t0 k =
      if grp k = x.shard then (if x.kind = .clear then none else Store.see (fun k => (d k).map kept) x.now k) else Store.see (fun k => (d k).map kept) t0 k := by
    intro k
    by_cases hk : grp k = x.shard
    · by_cases hc : x.kind = .clear
      · rw [if_pos hk, if_pos hc]
        unfold Store.see dictDone
        beta_reduce
        rw [if_pos hk, if_pos hc]
        rfl
      · rw [if_pos hk, if_neg hc, ← hsub _ k]
        exact see_congr (by unfold dictDone; rw [if_pos hk, if_neg hc, see_get])
    · rw [if_neg hk]
      exact see_congr (by unfold dictDone; rw [if_neg hk])
  refine ⟨fun k => ?_, fun k z hz => ?_⟩
  · rw [e1, e2, h.1 k, (h.later hle).1 k]
  · rw [e1] at hz
    split at hz
    · split at hz
      · cases hz
      · exact (h.later hle).2 k z hz
    · exact h.2 k z hz

/-! ### The threads -/

variable {c : Ctx} {n : Nat} {pw : Bytes} {y : Sys} {clock : Nat → Nat → Env} {addr : Nat → Nat}

theorem live_no_unlock : Conc.NoUnlock (live c n pw y clock addr) := by
  rintro (l | w) i l' h
  · simp only [live] at h
    cases hs : (server c n pw y clock addr).act l with
    | access own' i' f' => rw [hs] at h; cases h
    | unlock i' l'' => exact no_unlock _ _ _ hs
    | commit l'' => rw [hs] at h; cases h
    | done => rw [hs] at h; cases h
  · simp only [live] at h
    cases hs : choreStep c w with
    | access own' i' f' => rw [hs] at h; cases h
    | unlock i' l'' => unfold choreStep at hs; split at hs <;> cases hs
    | commit l'' => rw [hs] at h; cases h
    | done => rw [hs] at h; cases h

theorem live_run_client {H : Nat → Prop} {l : Nat × Loc} {m m1 : Shards} {x : (Nat × Loc) ⊕ Worker} (h : Conc.Run (live c n pw y clock addr) H (.inl l) m x m1) :
    ∃ l1, x = .inl l1 ∧ Conc.Run (server c n pw y clock addr) H l m l1 m1 := by
  induction h with
  | refl => exact ⟨l, rfl, .refl⟩
  | @access x1 m1 own i f _ hi ha ih =>
    obtain ⟨l1, rfl, hrun⟩ := ih
    simp only [live] at ha
    cases hs : (server c n pw y clock addr).act l1 with
    | access own' i' f' =>
      rw [hs] at ha
      simp only [Conc.Act.access.injEq] at ha
      obtain ⟨rfl, rfl, rfl⟩ := ha
      exact ⟨_, rfl, .access hrun hi hs⟩
    | unlock i' l'' => rw [hs] at ha; cases ha
    | commit l'' => rw [hs] at ha; cases ha
    | done => rw [hs] at ha; cases ha

theorem live_commit_client {l : Nat × Loc} {x : (Nat × Loc) ⊕ Worker} (h : (live c n pw y clock addr).act (.inl l) = .commit x) :
    ∃ l1, x = .inl l1 ∧ (server c n pw y clock addr).act l = .commit l1 := by
  simp only [live] at h
  cases hs : (server c n pw y clock addr).act l with
  | access own' i' f' => rw [hs] at h; cases h
  | unlock i' l'' => rw [hs] at h; cases h
  | commit l'' => rw [hs] at h; cases h; exact ⟨_, rfl, rfl⟩
  | done => rw [hs] at h; cases h

theorem live_commit_worker {w : Worker} {z : (Nat × Loc) ⊕ Worker} (h : (live c n pw y clock addr).act (.inr w) = .commit z) :
    ∃ x xs l, w.todo = x :: xs ∧ w.got = .val (some l) ∧ z = .inr ⟨xs, .val none, w.shown ++ [(x, l)]⟩ := by
  simp only [live] at h
  cases hs : choreStep c w with
  | access own' i' f' => rw [hs] at h; cases h
  | unlock i' l'' => rw [hs] at h; cases h
  | done => rw [hs] at h; cases h
  | commit l'' =>
    rw [hs] at h
    cases h
    unfold choreStep at hs
    split at hs
    · cases hs
    · rename_i x xs l h1 h2
      cases hs
      exact ⟨x, xs, l, h1, h2, rfl⟩
    · cases hs

theorem live_run_worker (hv : c.Valid) {H : Nat → Prop} {w : Worker} (hg : w.got = .val none) (hw : ∀ x ∈ w.todo, x.shard < n) {m m1 : Shards} (hA : AllInv c n m)
    {z : (Nat × Loc) ⊕ Worker} (h : Conc.Run (live c n pw y clock addr) H (.inr w) m z m1) :
    (z = .inr w ∧ m1 = m) ∨
    ∃ x xs l sh, w.todo = x :: xs ∧ choreOp c x (m x.shard) = .val (l, sh) ∧ z = .inr { w with got := .val (some l) } ∧ m1 = update m x.shard sh := by
  induction h with
  | refl => exact Or.inl ⟨rfl, rfl⟩
  | @access x1 m1 own i f _ hi ha ih =>
    simp only [live] at ha
    rcases ih with ⟨rfl, rfl⟩ | ⟨x, xs, l, sh, h1, h2, rfl, rfl⟩
    · simp only [] at ha
      unfold choreStep at ha
      rw [hg] at ha
      cases ht : w.todo with
      | nil => rw [ht] at ha; simp only [] at ha; cases ha
      | cons x xs =>
        rw [ht] at ha
        simp only [Conc.Act.access.injEq] at ha
        obtain ⟨_, rfl, rfl⟩ := ha
        obtain ⟨l, sh, h1, _⟩ := chore_exact hv (hw x (by rw [ht]; simp)) hA
        right
        refine ⟨x, xs, l, sh, rfl, h1, ?_, ?_⟩
        · simp only [h1]
        · simp only [h1]
    · simp only [choreStep, h1] at ha
      cases ha

section

variable {asks : Nat → List Ask} {chunks : Nat → List Bytes} {cs : Nat → List (List Bytes)} {ws : Nat → List Bytes}

/-- The connection of a client; that of a worker is not used. -/
def clientOf (pw : Bytes) (y : Sys) (clock : Nat → Nat → Env) (chunks : Nat → List Bytes) (loc : Nat → (Nat × Loc) ⊕ Worker) (t : Nat) : Nat × Loc :=
  match loc t with
  | .inl l => l
  | .inr _ => (t, opened pw y (clock t) (chunks t))

/-- What a chore has shown was there. -/
def Seen (grp : Bytes → Nat) (now0 : Int) (e : Nat × Chore × Store) (z : Chore × List (Bytes × Spec.Item)) : Prop :=
  e.2.1 = z.1 ∧ ∃ d : Spec.Dict, Agrees now0 d e.2.2 ∧ (z.1.kind = .show → DictShows grp z.1 d z.2)

/-- What is known of the events. -/
def Told (clock : Nat → Nat → Env) (asks : Nat → List Ask) (grp : Bytes → Nat) (now0 : Int) (m0 : Store) (work : Nat → Option (List Chore)) (h : List Nat)
    (loc : Nat → (Nat × Loc) ⊕ Worker) (rs ps : Nat → List Reply) (m : Store) : Prop :=
  ∃ ev log, ev.map Prod.fst = h ∧ (∀ e ∈ ev, e.2 = none ↔ work e.1 = none) ∧ Live clock asks grp m0 ev rs ps m log ∧
    ∀ t w, loc t = .inr w → List.Forall₂ (Seen grp now0) (log.filter fun e => e.1 = t) w.shown

/-- A worker between two chores. -/
def WorkerOk (work : Option (List Chore)) : (Nat × Loc) ⊕ Worker → Prop
  | .inl _ => work = none
  | .inr w => w.got = .val none ∧ work = some (w.shown.map Prod.fst ++ w.todo)

theorem live_inv (hv : c.Valid) (hn : 0 < n) {shs : Shards} (hA : AllInv c n shs) {now0 : Int} {s : Spec.State} (hR : R c n now0 shs s)
    {m0 : Store} (hag : Agrees now0 s.dict m0) (hclock : ∀ t i, Fine (clock t i)) (hle : ∀ t i, now0 ≤ (clock t i).now)
    (hcl : Clients asks chunks cs ws) {work : Nat → Option (List Chore)} (hwork : ∀ t l, work t = some l → ∀ x ∈ l, x.shard < n ∧ now0 ≤ x.now)
    {h : List Nat} {loc : Nat → (Nat × Loc) ⊕ Worker} {mem : Shards}
    (hser : Conc.Serial (live c n pw y clock addr) (liveStart pw y clock chunks work) shs h loc mem) :
    Known c n clock asks chunks cs ws now0 (clientOf pw y clock chunks loc) mem (Told clock asks (shardIdx c n) now0 m0 work h loc) ∧ ∀ t, WorkerOk (work t) (loc t) := by
  induction hser with
  | nil =>
    have e : clientOf pw y clock chunks (liveStart pw y clock chunks work) = fun t => (t, opened pw y (clock t) (chunks t)) := by
      funext t
      unfold clientOf liveStart
      cases work t <;> rfl
    rw [e]
    refine ⟨known_start hA hR hag hclock hle hcl ⟨[], [], rfl, by simp, .none, fun t w hw => ?_⟩, fun t => ?_⟩
    · unfold liveStart at hw
      split at hw
      · cases hw
      · cases hw
        exact .nil
    · unfold liveStart
      cases hw : work t with
      | none => rfl
      | some l => exact ⟨rfl, by simp⟩
  | @snoc h loc1 mem1 mem' t l' _ htx ih =>
    obtain ⟨ih1, ih2⟩ := ih
    obtain ⟨z, hrun, hact⟩ := htx
    have it := ih2 t
    cases hl : loc1 t with
    | inl l =>
      rw [hl] at hrun it
      obtain ⟨l1, rfl, hrun'⟩ := live_run_client hrun
      obtain ⟨l2, rfl, hact'⟩ := live_commit_client hact
      have e1 : clientOf pw y clock chunks loc1 t = l := by unfold clientOf; rw [hl]
      have e2 : clientOf pw y clock chunks (update loc1 t (.inl l2)) = update (clientOf pw y clock chunks loc1) t l2 := by
        funext u
        by_cases hu : u = t
        · subst hu
          unfold clientOf
          rw [update_self, update_self]
        · rw [update_of_ne hu]
          unfold clientOf
          rw [update_of_ne hu]
      have hwt : work t = none := it
      refine ⟨?_, fun u => ?_⟩
      · rw [e2]
        refine known_step (addr := addr) hv hn hclock hle hcl ih1 (t := t) ⟨l1, by rw [e1]; exact hrun', hact'⟩ ?_
        rintro rs ps m1 rs' ps' m2 ⟨ev, log, g1, g2, g3, g4⟩ hnext
        refine ⟨_, log, by rw [List.map_append, g1]; rfl, fun e he => ?_, .ask g3 hnext, fun u w hw => ?_⟩
        · rcases List.mem_append.1 he with he | he
          · exact g2 e he
          · rw [List.mem_singleton.1 he]
            simp [hwt]
        · have hu : u ≠ t := by rintro rfl; rw [update_self] at hw; cases hw
          rw [update_of_ne hu] at hw
          exact g4 u w hw
      · by_cases hu : u = t
        · subst hu; rw [update_self]; exact hwt
        · rw [update_of_ne hu]; exact ih2 u
    | inr w =>
      rw [hl] at hrun it
      obtain ⟨hg, hwt⟩ := it
      have hok : ∀ x ∈ w.todo, x.shard < n ∧ now0 ≤ x.now := fun x hx => hwork t _ hwt x (List.mem_append_right _ hx)
      rcases live_run_worker hv hg (fun x hx => (hok x hx).1) ih1.1 hrun with ⟨rfl, rfl⟩ | ⟨x, xs, l, sh, h1, h2, rfl, rfl⟩
      · obtain ⟨_, _, _, _, hc, _⟩ := live_commit_worker hact
        rw [hg] at hc
        cases hc
      obtain ⟨x', xs', l2, k1, k2, rfl⟩ := live_commit_worker hact
      simp only [] at k1 k2
      rw [h1] at k1
      cases k1
      cases k2
      obtain ⟨l3, sh3, q1, q2, q3⟩ := chore_exact hv (hok x (by rw [h1]; simp)).1 ih1.1
      rw [h2] at q1
      cases q1
      have hlx := (hok x (by rw [h1]; simp)).2
      obtain ⟨_, i2, i3⟩ := ih1
      have e2 : clientOf pw y clock chunks (update loc1 t (.inr ⟨xs, .val none, w.shown ++ [(x, l)]⟩)) = clientOf pw y clock chunks loc1 := by
        funext u
        unfold clientOf
        by_cases hu : u = t
        · subst hu
          rw [update_self, hl]
        · rw [update_of_ne hu]
      refine ⟨?_, fun u => ?_⟩
      · rw [e2]
        refine ⟨q2, i2, fun hnw => ?_⟩
        obtain ⟨q4, q5⟩ := q3 hnw
        obtain ⟨rs, ps, m, st, ⟨ev, log, g1, g2, g3, g4⟩, g5, g6, g7⟩ := i3 q4
        obtain ⟨q6, q7⟩ := q5 now0 st hlx g5
        refine ⟨rs, ps, _, _, ⟨_, _, by rw [List.map_append, g1]; rfl, fun e he => ?_, .chore (t := t) (x := x) g3, fun u w' hw => ?_⟩, q6, chore_agrees hlx g6 _, g7⟩
        · rcases List.mem_append.1 he with he | he
          · exact g2 e he
          · rw [List.mem_singleton.1 he]
            simp [hwt]
        · rw [List.filter_append]
          by_cases hu : u = t
          · subst hu
            rw [update_self] at hw
            cases hw
            refine List.rel_append (g4 u w hl) ?_
            simp only [List.filter_cons, List.filter_nil, decide_true, if_true]
            exact .cons ⟨rfl, st.dict, g6, q7⟩ .nil
          · rw [update_of_ne hu] at hw
            have : ¬ t = u := fun hc => hu hc.symm
            simp only [List.filter_cons, List.filter_nil, this, decide_false, Bool.false_eq_true, if_false, List.append_nil]
            exact g4 u w' hw
      · by_cases hu : u = t
        · subst hu
          rw [update_self]
          refine ⟨rfl, ?_⟩
          rw [hwt, h1]
          simp
        · rw [update_of_ne hu]; exact ih2 u

/-- Clients and workers, from any state. -/
theorem live_from (hv : c.Valid) (hn : 0 < n) {shs : Shards} (hA : AllInv c n shs) {now0 : Int} {s : Spec.State} (hR : R c n now0 shs s)
    {m0 : Store} (hag : Agrees now0 s.dict m0) (hclock : ∀ t i, Fine (clock t i)) (hle : ∀ t i, now0 ≤ (clock t i).now)
    (hcl : Clients asks chunks cs ws) {work : Nat → Option (List Chore)} (hwork : ∀ t l, work t = some l → ∀ x ∈ l, x.shard < n ∧ now0 ≤ x.now)
    (hp : (live c n pw y clock addr).Ok) {h : List Nat} {s' : Conc.State ((Nat × Loc) ⊕ Worker) Sh}
    (he : Conc.Exec (live c n pw y clock addr) (liveStart pw y clock chunks work) shs s' h) :
    (∀ t l, s'.loc t = .inl l → (∃ j, l.2.job = .val j) ∨ l.2.job = .abort true) ∧ (∀ t w, s'.loc t = .inr w → ∃ g, w.got = .val g) ∧
    (NoWrap n s'.mem → ∃ ev rs ps m log, ev.map Prod.fst = h ∧ (∀ e ∈ ev, e.2 = none ↔ work e.1 = none) ∧ Live clock asks (shardIdx c n) m0 ev rs ps m log ∧
      (∀ t l, s'.loc t = .inl l → work t = none ∧ Reads l.2.sent (rs t) ∧ (l.2.job = .val none → ps t = [] ∧ ∃ tail, Received (ws t) (chunks t).flatten (rs t).length tail)) ∧
      ∀ t w, s'.loc t = .inr w → work t = some (w.shown.map Prod.fst ++ w.todo) ∧ List.Forall₂ (Seen (shardIdx c n) now0) (log.filter fun e => e.1 = t) w.shown) := by
  obtain ⟨locA, memA, hser, hsim⟩ := Conc.exec_sim hp live_no_unlock he
  obtain ⟨⟨h1, h2, h3⟩, h4⟩ := live_inv hv hn hA hR hag hclock hle hcl hwork hser
  have hclient : ∀ t l, locA t = .inl l → clientOf pw y clock chunks locA t = l := by
    intro t l hl
    unfold clientOf
    rw [hl]
  have hworker : ∀ t w, locA t = .inr w → w.got = .val none ∧ (∀ x ∈ w.todo, x.shard < n) ∧ work t = some (w.shown.map Prod.fst ++ w.todo) := by
    intro t w hl
    have := h4 t
    rw [hl] at this
    exact ⟨this.1, fun x hx => (hwork t _ this.2 x (List.mem_append_right _ hx)).1, this.2⟩
  -- a client in the middle of a command
  have part : ∀ t l, s'.loc t = .inl l → ∃ l0, locA t = .inl l0 ∧ l.2.sent = l0.2.sent ∧ ((∃ j, l.2.job = .val j) ∨ l.2.job = .abort true) ∧
      (l.2.job = .val none → l0.2.job = .val none) := by
    intro t l hl
    cases hrel : s'.rel t with
    | true =>
      have e := (hsim.rel t hrel).1
      rw [hl] at e
      refine ⟨l, e.symm, rfl, ?_, id⟩
      have := (h2 t).2
      rw [hclient t l e.symm] at this
      rcases this with hj | ⟨_, _, _, hj, _⟩ <;> exact Or.inl ⟨_, hj⟩
    | false =>
      obtain ⟨m1, hrun, _⟩ := hsim.run t hrel
      cases hl0 : locA t with
      | inl l0 =>
        rw [hl0, hl] at hrun
        obtain ⟨l1, e1, hrun⟩ := live_run_client hrun
        cases e1
        have h5 := (h2 t).2
        rw [hclient t l0 hl0] at h5
        obtain ⟨g1, g2, g3, _⟩ := client_part hv hn hclock (t := l0.1) (l := l0.2) h5 h1 hrun
        exact ⟨l0, rfl, g1, g2, g3⟩
      | inr w0 =>
        obtain ⟨w1, w2, _⟩ := hworker t w0 hl0
        rw [hl0, hl] at hrun
        rcases live_run_worker hv w1 w2 h1 hrun with ⟨e1, _⟩ | ⟨_, _, _, _, _, _, e1, _⟩ <;> cases e1
  -- a worker in the middle of a chore
  have wpart : ∀ t w, s'.loc t = .inr w → ∃ w0, locA t = .inr w0 ∧ w.shown = w0.shown ∧ w.todo = w0.todo ∧ ∃ g, w.got = .val g := by
    intro t w hl
    cases hrel : s'.rel t with
    | true =>
      have e := (hsim.rel t hrel).1
      rw [hl] at e
      exact ⟨w, e.symm, rfl, rfl, _, (hworker t w e.symm).1⟩
    | false =>
      obtain ⟨m1, hrun, _⟩ := hsim.run t hrel
      cases hl0 : locA t with
      | inl l0 =>
        rw [hl0, hl] at hrun
        obtain ⟨l1, e1, _⟩ := live_run_client hrun
        cases e1
      | inr w0 =>
        obtain ⟨w1, w2, _⟩ := hworker t w0 hl0
        rw [hl0, hl] at hrun
        rcases live_run_worker hv w1 w2 h1 hrun with ⟨e1, _⟩ | ⟨_, _, _, _, _, _, e1, _⟩ <;> cases e1
        · exact ⟨_, rfl, rfl, rfl, _, w1⟩
        · exact ⟨_, rfl, rfl, rfl, _, rfl⟩
  refine ⟨fun t l hl => ?_, fun t w hl => ?_, fun hnw => ?_⟩
  · obtain ⟨_, _, _, g, _⟩ := part t l hl
    exact g
  · obtain ⟨_, _, _, _, g⟩ := wpart t w hl
    exact g
  have hnwA : NoWrap n memA := by
    refine nowrap_back hv hsim h1 (fun t m m1 hm hrun hnw1 => ?_) hnw
    cases hl0 : locA t with
    | inl l0 =>
      rw [hl0] at hrun
      obtain ⟨l1, e1, hrun⟩ := live_run_client hrun
      have h5 := (h2 t).2
      rw [hclient t l0 hl0] at h5
      exact (client_part hv hn hclock (t := l0.1) (l := l0.2) h5 hm hrun).2.2.2 hnw1
    | inr w0 =>
      obtain ⟨w1, w2, _⟩ := hworker t w0 hl0
      rw [hl0] at hrun
      rcases live_run_worker hv w1 w2 hm hrun with ⟨_, rfl⟩ | ⟨x, xs, l, sh, k1, k2, _, rfl⟩
      · exact hnw1
      · obtain ⟨l3, sh3, q1, _, q3⟩ := chore_exact hv (w2 x (by rw [k1]; simp)) hm
        rw [k2] at q1
        cases q1
        exact (q3 hnw1).1
  obtain ⟨rs, ps, m, st, ⟨ev, log, g1, g2, g3, g4⟩, _, _, g7⟩ := h3 hnwA
  refine ⟨ev, rs, ps, m, log, g1, g2, g3, fun t l hl => ?_, fun t w hl => ?_⟩
  · obtain ⟨l0, e0, e1, _, e3⟩ := part t l hl
    obtain ⟨_, k3, k4, _⟩ := g7 t
    rw [hclient t l0 e0] at k3 k4
    have := h4 t
    rw [e0] at this
    exact ⟨this, by rw [e1]; exact k3, fun hj => k4 (e3 hj)⟩
  · obtain ⟨w0, e0, e1, e2, _⟩ := wpart t w hl
    rw [e1, e2]
    exact ⟨(hworker t w0 e0).2.2, g4 t w0 e0⟩

end

end Verif.Many
