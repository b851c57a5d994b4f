import Mathlib.Tactic.Common
import Verif.Many.LiveProps
import Verif.Mix.Props
import Verif.Mix.LiveSpec
import Verif.Mix.LiveModel

/-!
C123: SAVE, KEYS, sweeps and flushes while clients of all protocols work.
-/

namespace Verif.Mix

open Verif.Num Verif.Resp Verif.Cmd Verif.Cache Verif.Shard Verif.Map Function
open Verif.Many (Chore Worker choreStep choreOp chore_exact dictDone DictShows nowrap_back)

theorem see_again (m : Store) {t0 t : Int} (hle : t0 ≤ t) (u : Bytes → Nat) (k : Bytes) : McWire.Store.see ⟨fun k => m.see t k, u⟩ t0 k = m.see t k := by
  unfold McWire.Store.see
  simp only []
  cases m.has k with
  | none => rfl
  | some x =>
    obtain ⟨v, f, up, cas⟩ := x
    cases up with
    | none => rfl
    | some e =>
      by_cases h1 : t < e
      · have h2 : t0 < e := by omega
        simp [Option.filter, h1, h2]
      · simp [Option.filter, h1]

theorem see_choreDone {grp : Bytes → Nat} {t0 : Int} {x : Chore} (hle : t0 ≤ x.now) (m : Store) (k : Bytes) :
    (choreDone grp x m).see t0 k = if grp k = x.shard then (if x.kind = .clear then none else m.see x.now k) else m.see t0 k := by
  by_cases hk : grp k = x.shard
  · by_cases hc : x.kind = .clear
    · rw [if_pos hk, if_pos hc]
      unfold McWire.Store.see choreDone
      simp only []
      rw [if_pos hk, if_pos hc]
      rfl
    · rw [if_pos hk, if_neg hc, ← see_again m hle m.used k]
      unfold McWire.Store.see choreDone
      simp only []
      rw [if_pos hk, if_neg hc]
      rfl
  · rw [if_neg hk]
    unfold McWire.Store.see choreDone
    simp only []
    rw [if_neg hk]

theorem get_dictDone {grp : Bytes → Nat} {t0 : Int} {x : Chore} (hle : t0 ≤ x.now) (d : Spec.Dict) (k : Bytes) :
    (dictDone grp x d).get t0 k = if grp k = x.shard then (if x.kind = .clear then none else d.get x.now k) else d.get t0 k := by
  have e : (dictDone grp x d).get t0 k = (if grp k = x.shard then (if x.kind = .clear then none else d.get x.now k) else d k).filter (·.visible t0) := rfl
  rw [e]
  by_cases hk : grp k = x.shard
  · rw [if_pos hk, if_pos hk]
    by_cases hc : x.kind = .clear
    · rw [if_pos hc]
      rfl
    · rw [if_neg hc]
      unfold Spec.Dict.get
      cases d k with
      | none => rfl
      | some it =>
        by_cases h1 : it.visible x.now = true
        · have h2 : it.visible t0 = true := by
            unfold Spec.Item.visible at h1 ⊢
            simp only [Bool.or_eq_true, decide_eq_true_eq] at h1 ⊢
            omega
          simp [Option.filter, h1, h2]
        · simp [Option.filter, h1]
  · rw [if_neg hk, if_neg hk]
    rfl

/-- The store does what the dictionary does. -/
theorem chore_agr {grp : Bytes → Nat} {t0 : Int} {x : Chore} (hle : t0 ≤ x.now) {s : Spec.State} {m : Store} (h : Agr grp t0 s m) :
    Agr grp t0 ⟨dictDone grp x s.dict, s.tok⟩ (choreDone grp x m) := by
  refine ⟨⟨fun k => ?_, h.1.2⟩, fun k z hz => ?_⟩
  · simp only []
    rw [get_dictDone hle, see_choreDone hle]
    split
    · split
      · rfl
      · exact (h.later hle).1.1 k
    · exact h.1.1 k
  · rw [see_choreDone hle] at hz
    split at hz
    · split at hz
      · cases hz
      · exact (h.later hle).2 k z hz
    · exact h.2 k z hz

/-! ### The threads -/

variable {c : Ctx} {n : Nat} {kind : Nat → Kind} {pw : Bytes} {y : Sys} {clock : Nat → Nat → Env} {addr : Nat → Nat}

theorem live_no_unlock : Conc.NoUnlock (liveServer c n kind pw y clock addr) := by
  rintro (l | w) i l' h
  · simp only [liveServer] at h
    cases hs : (server c n kind pw y clock addr).act l with
    | access own' i' f' => rw [hs] at h; cases h
    | unlock i' l'' => exact no_unlock _ _ _ hs
    | commit l'' => rw [hs] at h; cases h
    | done => rw [hs] at h; cases h
  · simp only [liveServer] at h
    cases hs : choreStep c w with
    | access own' i' f' => rw [hs] at h; cases h
    | unlock i' l'' => unfold choreStep at hs; split at hs <;> cases hs
    | commit l'' => rw [hs] at h; cases h
    | done => rw [hs] at h; cases h

theorem live_run_client {H : Nat → Prop} {l : Nat × Loc} {m m1 : Shards} {x : (Nat × Loc) ⊕ Worker} (h : Conc.Run (liveServer c n kind pw y clock addr) H (.inl l) m x m1) :
    ∃ l1, x = .inl l1 ∧ Conc.Run (server c n kind pw y clock addr) H l m l1 m1 := by
  induction h with
  | refl => exact ⟨l, rfl, .refl⟩
  | @access x1 m1 own i f _ hi ha ih =>
    obtain ⟨l1, rfl, hrun⟩ := ih
    simp only [liveServer] at ha
    cases hs : (server c n kind pw y clock addr).act l1 with
    | access own' i' f' =>
      rw [hs] at ha
      simp only [Conc.Act.access.injEq] at ha
      obtain ⟨rfl, rfl, rfl⟩ := ha
      exact ⟨_, rfl, .access hrun hi hs⟩
    | unlock i' l'' => rw [hs] at ha; cases ha
    | commit l'' => rw [hs] at ha; cases ha
    | done => rw [hs] at ha; cases ha

theorem live_commit_client {l : Nat × Loc} {x : (Nat × Loc) ⊕ Worker} (h : (liveServer c n kind pw y clock addr).act (.inl l) = .commit x) :
    ∃ l1, x = .inl l1 ∧ (server c n kind pw y clock addr).act l = .commit l1 := by
  simp only [liveServer] at h
  cases hs : (server c n kind pw y clock addr).act l with
  | access own' i' f' => rw [hs] at h; cases h
  | unlock i' l'' => rw [hs] at h; cases h
  | commit l'' => rw [hs] at h; cases h; exact ⟨_, rfl, rfl⟩
  | done => rw [hs] at h; cases h

theorem live_commit_worker {w : Worker} {z : (Nat × Loc) ⊕ Worker} (h : (liveServer c n kind pw y clock addr).act (.inr w) = .commit z) :
    ∃ x xs l, w.todo = x :: xs ∧ w.got = .val (some l) ∧ z = .inr ⟨xs, .val none, w.shown ++ [(x, l)]⟩ := by
  simp only [liveServer] at h
  cases hs : choreStep c w with
  | access own' i' f' => rw [hs] at h; cases h
  | unlock i' l'' => rw [hs] at h; cases h
  | done => rw [hs] at h; cases h
  | commit l'' =>
    rw [hs] at h
    cases h
    unfold choreStep at hs
    split at hs
    · cases hs
    · rename_i x xs l h1 h2
      cases hs
      exact ⟨x, xs, l, h1, h2, rfl⟩
    · cases hs

theorem live_run_worker (hv : c.Valid) {H : Nat → Prop} {w : Worker} (hg : w.got = .val none) (hw : ∀ x ∈ w.todo, x.shard < n) {m m1 : Shards} (hA : AllInv c n m)
    {z : (Nat × Loc) ⊕ Worker} (h : Conc.Run (liveServer c n kind pw y clock addr) H (.inr w) m z m1) :
    (z = .inr w ∧ m1 = m) ∨
    ∃ x xs l sh, w.todo = x :: xs ∧ choreOp c x (m x.shard) = .val (l, sh) ∧ z = .inr { w with got := .val (some l) } ∧ m1 = update m x.shard sh := by
  induction h with
  | refl => exact Or.inl ⟨rfl, rfl⟩
  | @access x1 m1 own i f _ hi ha ih =>
    simp only [liveServer] at ha
    rcases ih with ⟨rfl, rfl⟩ | ⟨x, xs, l, sh, h1, h2, rfl, rfl⟩
    · simp only [] at ha
      unfold choreStep at ha
      rw [hg] at ha
      cases ht : w.todo with
      | nil => rw [ht] at ha; simp only [] at ha; cases ha
      | cons x xs =>
        rw [ht] at ha
        simp only [Conc.Act.access.injEq] at ha
        obtain ⟨_, rfl, rfl⟩ := ha
        obtain ⟨l, sh, h1, _⟩ := chore_exact hv (hw x (by rw [ht]; simp)) hA
        right
        refine ⟨x, xs, l, sh, rfl, h1, ?_, ?_⟩
        · simp only [h1]
        · simp only [h1]
    · simp only [choreStep, h1] at ha
      cases ha

section

variable {asks : Nat → List Ask} {chunks : Nat → List Bytes} {cs : Nat → List Req} {ws : Nat → List Bytes}

/-- The connection of a client; that of a worker is not used. -/
def clientOf (kind : Nat → Kind) (pw : Bytes) (y : Sys) (clock : Nat → Nat → Env) (chunks : Nat → List Bytes) (loc : Nat → (Nat × Loc) ⊕ Worker) (t : Nat) : Nat × Loc :=
  match loc t with
  | .inl l => l
  | .inr _ => (t, opened (kind t) pw y (clock t) (chunks t))

/-- What a chore has shown was there. -/
def Seen (grp : Bytes → Nat) (now0 : Int) (e : Chore × Store) (z : Chore × List (Bytes × Spec.Item)) : Prop :=
  e.1 = z.1 ∧ ∃ st : Spec.State, Agr grp now0 st e.2 ∧ (z.1.kind = .show → DictShows grp z.1 st.dict z.2)

/-- What is known of the events. -/
def Told (ver : Bytes) (clock : Nat → Nat → Env) (asks : Nat → List Ask) (grp : Bytes → Nat) (now0 : Int) (m0 : Store) (work : Nat → Option (List Chore)) (h : List Nat)
    (loc : Nat → (Nat × Loc) ⊕ Worker) (rs ps : Nat → List Ans) (m : Store) : Prop :=
  ∃ ds, ds.map Did.who = h ∧ (∀ d ∈ ds, d.isPart = true ↔ work d.who = none) ∧ LiveStory ver clock asks grp m0 ds rs ps m ∧
    ∀ t w, loc t = .inr w → List.Forall₂ (Seen grp now0) (ds.filterMap (Did.choreOf t)) w.shown

/-- A worker between two chores. -/
def WorkerOk (work : Option (List Chore)) : (Nat × Loc) ⊕ Worker → Prop
  | .inl _ => work = none
  | .inr w => w.got = .val none ∧ work = some (w.shown.map Prod.fst ++ w.todo)

theorem live_inv (hv : c.Valid) (hu : c.usecas = true) (hn : 0 < n) {shs : Shards} (hA : AllInv c n shs) {now0 : Int} {s : Spec.State} (hR : R c n now0 shs s)
    {m0 : Store} (hag : Agr (shardIdx c n) now0 s m0) (hclock : ∀ t i, Fine (kind t) (clock t i)) (hle : ∀ t i, now0 ≤ (clock t i).now)
    (hcl : Parsed pw y kind asks chunks cs ws) {work : Nat → Option (List Chore)} (hwork : ∀ t l, work t = some l → ∀ x ∈ l, x.shard < n ∧ now0 ≤ x.now)
    {h : List Nat} {loc : Nat → (Nat × Loc) ⊕ Worker} {mem : Shards}
    (hser : Conc.Serial (liveServer c n kind pw y clock addr) (liveStart kind pw y clock chunks work) shs h loc mem) :
    Known c n y.version clock asks chunks cs ws now0 (clientOf kind pw y clock chunks loc) mem (Told y.version clock asks (shardIdx c n) now0 m0 work h loc) ∧ ∀ t, WorkerOk (work t) (loc t) := by
  induction hser with
  | nil =>
    have e : clientOf kind pw y clock chunks (liveStart kind pw y clock chunks work) = fun t => (t, opened (kind t) pw y (clock t) (chunks t)) := by
      funext t
      unfold clientOf liveStart
      cases work t <;> rfl
    rw [e]
    refine ⟨known_start hu hA hR hag hclock hle hcl ⟨[], rfl, by simp, .none, fun t w hw => ?_⟩, fun t => ?_⟩
    · unfold liveStart at hw
      split at hw
      · cases hw
      · cases hw
        exact .nil
    · unfold liveStart
      cases hw : work t with
      | none => rfl
      | some l => exact ⟨rfl, by simp⟩
  | @snoc h loc1 mem1 mem' t l' _ htx ih =>
    obtain ⟨ih1, ih2⟩ := ih
    obtain ⟨z, hrun, hact⟩ := htx
    have it := ih2 t
    cases hl : loc1 t with
    | inl l =>
      rw [hl] at hrun it
      obtain ⟨l1, rfl, hrun'⟩ := live_run_client hrun
      obtain ⟨l2, rfl, hact'⟩ := live_commit_client hact
      have e1 : clientOf kind pw y clock chunks loc1 t = l := by unfold clientOf; rw [hl]
      have e2 : clientOf kind pw y clock chunks (update loc1 t (.inl l2)) = update (clientOf kind pw y clock chunks loc1) t l2 := by
        funext u
        by_cases hut : u = t
        · subst hut
          unfold clientOf
          rw [update_self, update_self]
        · rw [update_of_ne hut]
          unfold clientOf
          rw [update_of_ne hut]
      have hwt : work t = none := it
      refine ⟨?_, fun u => ?_⟩
      · rw [e2]
        refine known_step (addr := addr) hv hu hn hclock hle hcl ih1 (t := t) ⟨l1, by rw [e1]; exact hrun', hact'⟩ ?_
        rintro rs ps rs' ps' ev hwho ⟨ds, g1, g2, g3, g4⟩ hnext
        refine ⟨_, by rw [List.map_append, g1, ← hwho]; rfl, fun e he => ?_, .part g3 hnext, fun u w hw => ?_⟩
        · rcases List.mem_append.1 he with he | he
          · exact g2 e he
          · rw [List.mem_singleton.1 he]
            simp [Did.isPart, Did.who, hwho, hwt]
        · have hut : u ≠ t := by rintro rfl; rw [update_self] at hw; cases hw
          rw [update_of_ne hut] at hw
          rw [List.filterMap_append]
          simpa [List.filterMap_cons, Did.choreOf] using g4 u w hw
      · by_cases hut : u = t
        · subst hut; rw [update_self]; exact hwt
        · rw [update_of_ne hut]; exact ih2 u
    | inr w =>
      rw [hl] at hrun it
      obtain ⟨hg, hwt⟩ := it
      have hok : ∀ x ∈ w.todo, x.shard < n ∧ now0 ≤ x.now := fun x hx => hwork t _ hwt x (List.mem_append_right _ hx)
      rcases live_run_worker hv hg (fun x hx => (hok x hx).1) ih1.1 hrun with ⟨rfl, rfl⟩ | ⟨x, xs, l, sh, h1, h2, rfl, rfl⟩
      · obtain ⟨_, _, _, _, hc, _⟩ := live_commit_worker hact
        rw [hg] at hc
        cases hc
      obtain ⟨x', xs', l2, k1, k2, rfl⟩ := live_commit_worker hact
      simp only [] at k1 k2
      rw [h1] at k1
      cases k1
      cases k2
      obtain ⟨l3, sh3, q1, q2, q3⟩ := chore_exact hv (hok x (by rw [h1]; simp)).1 ih1.1
      rw [h2] at q1
      cases q1
      have hlx := (hok x (by rw [h1]; simp)).2
      obtain ⟨_, i2, i3⟩ := ih1
      have e2 : clientOf kind pw y clock chunks (update loc1 t (.inr ⟨xs, .val none, w.shown ++ [(x, l)]⟩)) = clientOf kind pw y clock chunks loc1 := by
        funext u
        unfold clientOf
        by_cases hut : u = t
        · subst hut
          rw [update_self, hl]
        · rw [update_of_ne hut]
      refine ⟨?_, fun u => ?_⟩
      · rw [e2]
        refine ⟨q2, i2, fun hnw => ?_⟩
        obtain ⟨q4, q5⟩ := q3 hnw
        obtain ⟨rs, ps, m, st, ⟨ds, g1, g2, g3, g4⟩, g5, g6, g7⟩ := i3 q4
        obtain ⟨q6, q7⟩ := q5 now0 st hlx g5
        refine ⟨rs, ps, _, _, ⟨_, by rw [List.map_append, g1]; rfl, fun e he => ?_, .chore (t := t) (x := x) g3, fun u w' hw => ?_⟩, q6, chore_agr hlx g6, g7⟩
        · rcases List.mem_append.1 he with he | he
          · exact g2 e he
          · rw [List.mem_singleton.1 he]
            simp [Did.isPart, Did.who, hwt]
        · rw [List.filterMap_append]
          by_cases hut : u = t
          · subst hut
            rw [update_self] at hw
            cases hw
            refine List.rel_append (g4 u w hl) ?_
            simp only [List.filterMap_cons, List.filterMap_nil, Did.choreOf, if_true]
            exact .cons ⟨rfl, st, g6, q7⟩ .nil
          · rw [update_of_ne hut] at hw
            have : ¬ t = u := fun hc => hut hc.symm
            simp only [List.filterMap_cons, List.filterMap_nil, Did.choreOf, this, if_false, List.append_nil]
            exact g4 u w' hw
      · by_cases hut : u = t
        · subst hut
          rw [update_self]
          refine ⟨rfl, ?_⟩
          rw [hwt, h1]
          simp
        · rw [update_of_ne hut]; exact ih2 u

/-- Clients and workers, from any state. -/
theorem live_from (hv : c.Valid) (hu : c.usecas = true) (hn : 0 < n) {shs : Shards} (hA : AllInv c n shs) {now0 : Int} {s : Spec.State} (hR : R c n now0 shs s)
    {m0 : Store} (hag : Agr (shardIdx c n) now0 s m0) (hclock : ∀ t i, Fine (kind t) (clock t i)) (hle : ∀ t i, now0 ≤ (clock t i).now)
    (hcl : Parsed pw y kind asks chunks cs ws) {work : Nat → Option (List Chore)} (hwork : ∀ t l, work t = some l → ∀ x ∈ l, x.shard < n ∧ now0 ≤ x.now)
    (hp : (liveServer c n kind pw y clock addr).Ok) {h : List Nat} {s' : Conc.State ((Nat × Loc) ⊕ Worker) Sh}
    (he : Conc.Exec (liveServer c n kind pw y clock addr) (liveStart kind pw y clock chunks work) shs s' h) :
    (∀ t l, s'.loc t = .inl l → (∃ j, l.2.job = .val j) ∨ l.2.job = .abort true) ∧ (∀ t w, s'.loc t = .inr w → ∃ g, w.got = .val g) ∧
    (NoWrap n s'.mem → ∃ ds rs ps m, ds.map Did.who = h ∧ (∀ d ∈ ds, d.isPart = true ↔ work d.who = none) ∧ LiveStory y.version clock asks (shardIdx c n) m0 ds rs ps m ∧
      (∀ t l, s'.loc t = .inl l → work t = none ∧ Reads l.2.sent (rs t) ∧ (l.2.job = .val none → ps t = [] ∧ ∃ tail, Received (ws t) (chunks t).flatten (rs t).length tail)) ∧
      ∀ t w, s'.loc t = .inr w → work t = some (w.shown.map Prod.fst ++ w.todo) ∧ List.Forall₂ (Seen (shardIdx c n) now0) (ds.filterMap (Did.choreOf t)) w.shown) := by
  obtain ⟨locA, memA, hser, hsim⟩ := Conc.exec_sim hp live_no_unlock he
  obtain ⟨⟨h1, h2, h3⟩, h4⟩ := live_inv hv hu hn hA hR hag hclock hle hcl hwork hser
  have hclient : ∀ t l, locA t = .inl l → clientOf kind pw y clock chunks locA t = l := by
    intro t l hl
    unfold clientOf
    rw [hl]
  have hworker : ∀ t w, locA t = .inr w → w.got = .val none ∧ (∀ x ∈ w.todo, x.shard < n) ∧ work t = some (w.shown.map Prod.fst ++ w.todo) := by
    intro t w hl
    have := h4 t
    rw [hl] at this
    exact ⟨this.1, fun x hx => (hwork t _ this.2 x (List.mem_append_right _ hx)).1, this.2⟩
  -- a client in the middle of a command
  have part : ∀ t l, s'.loc t = .inl l → ∃ l0, locA t = .inl l0 ∧ l.2.sent = l0.2.sent ∧ ((∃ j, l.2.job = .val j) ∨ l.2.job = .abort true) ∧
      (l.2.job = .val none → l0.2.job = .val none) := by
    intro t l hl
    cases hrel : s'.rel t with
    | true =>
      have e := (hsim.rel t hrel).1
      rw [hl] at e
      refine ⟨l, e.symm, rfl, ?_, id⟩
      have := (h2 t).2
      rw [hclient t l e.symm] at this
      rcases this with hj | ⟨_, _, _, hj, _⟩ <;> exact Or.inl ⟨_, hj⟩
    | false =>
      obtain ⟨m1, hrun, _⟩ := hsim.run t hrel
      cases hl0 : locA t with
      | inl l0 =>
        rw [hl0, hl] at hrun
        obtain ⟨l1, e1, hrun⟩ := live_run_client hrun
        cases e1
        have h5 := (h2 t).2
        rw [hclient t l0 hl0] at h5
        obtain ⟨g1, g2, g3, _⟩ := client_part hv hn hclock (t := l0.1) (l := l0.2) h5 h1 hrun
        exact ⟨l0, rfl, g1, g2, g3⟩
      | inr w0 =>
        obtain ⟨w1, w2, _⟩ := hworker t w0 hl0
        rw [hl0, hl] at hrun
        rcases live_run_worker hv w1 w2 h1 hrun with ⟨e1, _⟩ | ⟨_, _, _, _, _, _, e1, _⟩ <;> cases e1
  -- a worker in the middle of a chore
  have wpart : ∀ t w, s'.loc t = .inr w → ∃ w0, locA t = .inr w0 ∧ w.shown = w0.shown ∧ w.todo = w0.todo ∧ ∃ g, w.got = .val g := by
    intro t w hl
    cases hrel : s'.rel t with
    | true =>
      have e := (hsim.rel t hrel).1
      rw [hl] at e
      exact ⟨w, e.symm, rfl, rfl, _, (hworker t w e.symm).1⟩
    | false =>
      obtain ⟨m1, hrun, _⟩ := hsim.run t hrel
      cases hl0 : locA t with
      | inl l0 =>
        rw [hl0, hl] at hrun
        obtain ⟨l1, e1, _⟩ := live_run_client hrun
        cases e1
      | inr w0 =>
        obtain ⟨w1, w2, _⟩ := hworker t w0 hl0
        rw [hl0, hl] at hrun
        rcases live_run_worker hv w1 w2 h1 hrun with ⟨e1, _⟩ | ⟨_, _, _, _, _, _, e1, _⟩ <;> cases e1
        · exact ⟨_, rfl, rfl, rfl, _, w1⟩
        · exact ⟨_, rfl, rfl, rfl, _, rfl⟩
  refine ⟨fun t l hl => ?_, fun t w hl => ?_, fun hnw => ?_⟩
  · obtain ⟨_, _, _, g, _⟩ := part t l hl
    exact g
  · obtain ⟨_, _, _, _, g⟩ := wpart t w hl
    exact g
  have hnwA : NoWrap n memA := by
    refine nowrap_back hv hsim h1 (fun t m m1 hm hrun hnw1 => ?_) hnw
    cases hl0 : locA t with
    | inl l0 =>
      rw [hl0] at hrun
      obtain ⟨l1, e1, hrun⟩ := live_run_client hrun
      have h5 := (h2 t).2
      rw [hclient t l0 hl0] at h5
      exact (client_part hv hn hclock (t := l0.1) (l := l0.2) h5 hm hrun).2.2.2 hnw1
    | inr w0 =>
      obtain ⟨w1, w2, _⟩ := hworker t w0 hl0
      rw [hl0] at hrun
      rcases live_run_worker hv w1 w2 hm hrun with ⟨_, rfl⟩ | ⟨x, xs, l, sh, k1, k2, _, rfl⟩
      · exact hnw1
      · obtain ⟨l3, sh3, q1, _, q3⟩ := chore_exact hv (w2 x (by rw [k1]; simp)) hm
        rw [k2] at q1
        cases q1
        exact (q3 hnw1).1
  obtain ⟨rs, ps, m, st, ⟨ds, g1, g2, g3, g4⟩, _, _, g7⟩ := h3 hnwA
  refine ⟨ds, rs, ps, m, g1, g2, g3, fun t l hl => ?_, fun t w hl => ?_⟩
  · obtain ⟨l0, e0, e1, _, e3⟩ := part t l hl
    obtain ⟨_, k3, k4, _⟩ := g7 t
    rw [hclient t l0 e0] at k3 k4
    have := h4 t
    rw [e0] at this
    exact ⟨this, by rw [e1]; exact k3, fun hj => k4 (e3 hj)⟩
  · obtain ⟨w0, e0, e1, e2, _⟩ := wpart t w hl
    rw [e1, e2]
    exact ⟨(hworker t w0 e0).2.2, g4 t w0 e0⟩

end

end Verif.Mix
