import Verif.Conc.Cache

/-!
C20: deadlocks.
-/

namespace Verif.Conc

open Verif.Cache Verif.Shard Verif.Map Function

/-- No thread can do anything, although one of them has not ended. -/
def Deadlock {L S : Type} (p : Prog L S) (s : State L S) : Prop :=
  (∀ t b s', ¬ Step p t s b s') ∧ ∃ t, p.act (s.loc t) ≠ .done

/-! ### Schedules -/

variable {L S : Type}

/-- The step of a thread, computed; `none` if it cannot move. -/
def stepFn (p : Prog L S) (t : Nat) (s : State L S) : Option (Bool × State L S) :=
  if s.rel t then
    match s.held t with
    | [] => some (false, { s with rel := update s.rel t false })
    | x :: xs => some (false, { s with lock := update s.lock x.1 0, held := update s.held t xs })
  else match p.act (s.loc t) with
    | .access own i f =>
      if (if own then s.lock i = p.addr t else (i, false) ∈ s.held t) then
        some (false, { s with mem := update s.mem i (f (s.mem i)).2, loc := update s.loc t (f (s.mem i)).1 })
      else if s.lock i = 0 then
        some (false, { s with lock := update s.lock i (p.word t own), held := update s.held t ((i, own) :: s.held t) })
      else none
    | .unlock i l =>
      if (i, false) ∈ s.held t then
        some (false, { s with lock := update s.lock i 0, held := update s.held t ((s.held t).erase (i, false)), loc := update s.loc t l })
      else none
    | .commit l => some (true, { s with loc := update s.loc t l, rel := update s.rel t true })
    | .done => none

theorem stepFn_sound {p : Prog L S} {t : Nat} {s s' : State L S} {b : Bool} (h : stepFn p t s = some (b, s')) : Step p t s b s' := by
  unfold stepFn at h
  split at h
  · rename_i hr
    split at h
    · rename_i hh
      simp only [Option.some.injEq, Prod.mk.injEq] at h
      obtain ⟨rfl, rfl⟩ := h
      exact .next hr hh
    · rename_i x xs hh
      simp only [Option.some.injEq, Prod.mk.injEq] at h
      obtain ⟨rfl, rfl⟩ := h
      exact .release hr hh
  · rename_i hr
    have hr : s.rel t = false := by simpa using hr
    split at h
    · rename_i own i f ha
      by_cases hc : (if own then s.lock i = p.addr t else (i, false) ∈ s.held t)
      · simp only [if_pos hc, Option.some.injEq, Prod.mk.injEq] at h
        obtain ⟨rfl, rfl⟩ := h
        exact .access hr ha hc
      · simp only [if_neg hc] at h
        split at h
        · rename_i hc
          simp only [Option.some.injEq, Prod.mk.injEq] at h
          obtain ⟨rfl, rfl⟩ := h
          exact .lock hr ha hc
        · simp at h
    · rename_i i l ha
      split at h
      · rename_i hc
        simp only [Option.some.injEq, Prod.mk.injEq] at h
        obtain ⟨rfl, rfl⟩ := h
        exact .unlock hr ha hc
      · simp at h
    · rename_i l ha
      simp only [Option.some.injEq, Prod.mk.injEq] at h
      obtain ⟨rfl, rfl⟩ := h
      exact .commit hr ha
    · simp at h

theorem stepFn_complete {p : Prog L S} {t : Nat} {s s' : State L S} {b : Bool} (h : Step p t s b s') : stepFn p t s ≠ none := by
  unfold stepFn
  cases h with
  | @lock own i f hr ha hl =>
    simp only [hr, ha]
    by_cases hc : (if own then s.lock i = p.addr t else (i, false) ∈ s.held t)
    · simp only [if_pos hc]; simp
    · simp only [if_neg hc, if_pos hl]; simp
  | @access own i f hr ha hc =>
    simp only [hr, ha]
    simp only [hc]
    simp
  | @unlock i l hr ha hc => simp [hr, ha, hc]
  | @commit l hr ha => simp [hr, ha]
  | @release x xs hr hh => simp [hr, hh]
  | @next hr hh => simp [hr, hh]

/-- Follow a schedule. -/
def runSched (p : Prog L S) : List Nat → State L S → Option (State L S)
  | [], s => some s
  | t :: ts, s => (stepFn p t s).bind fun x => runSched p ts x.2

theorem runSched_exec {p : Prog L S} {loc : Nat → L} {mem : Nat → S} {ts : List Nat} {s s' : State L S} {h : List Nat}
    (he : Exec p loc mem s h) (hr : runSched p ts s = some s') : ∃ h', Exec p loc mem s' h' := by
  induction ts generalizing s h with
  | nil =>
    simp only [runSched, Option.some.injEq] at hr
    subst hr
    exact ⟨h, he⟩
  | cons t ts ih =>
    unfold runSched at hr
    obtain ⟨⟨b, s1⟩, h1, h2⟩ := Option.bind_eq_some_iff.1 hr
    exact ih (.step he (stepFn_sound h1)) h2

theorem step_other {p : Prog L S} {t u : Nat} {s s' : State L S} {b : Bool} (h : Step p t s b s') (hu : u ≠ t) :
    s'.loc u = s.loc u ∧ s'.rel u = s.rel u ∧ s'.held u = s.held u := by
  cases h <;> simp [update_of_ne hu]

theorem runSched_other {p : Prog L S} {ts : List Nat} {s s' : State L S} (hr : runSched p ts s = some s') {u : Nat} (hu : u ∉ ts) :
    s'.loc u = s.loc u ∧ s'.rel u = s.rel u ∧ s'.held u = s.held u := by
  induction ts generalizing s with
  | nil =>
    simp only [runSched, Option.some.injEq] at hr
    subst hr
    exact ⟨rfl, rfl, rfl⟩
  | cons t ts ih =>
    unfold runSched at hr
    obtain ⟨⟨b, s1⟩, h1, h2⟩ := Option.bind_eq_some_iff.1 hr
    obtain ⟨a1, a2, a3⟩ := ih h2 (fun h => hu (by simp [h]))
    obtain ⟨b1, b2, b3⟩ := step_other (stepFn_sound h1) (u := u) (fun h => hu (by simp [h]))
    exact ⟨by rw [a1, b1], by rw [a2, b2], by rw [a3, b3]⟩

/-! ### Two batches -/

namespace Example

def sOpts0 : StoreOpts := Verif.Cache.Example.sOpts 0

def put (k : Bytes) : KCall := ⟨.store k [1] sOpts0, Verif.Cache.Example.okMem, 100⟩

/-- A batch of two stores. -/
def two (a b : Bytes) : Client := fun log =>
  if log.length = 0 then some (.batch fun cur => if cur.length = 0 then some (put a) else if cur.length = 1 then some (put b) else none)
  else none

/-- Two keys in different shards of two. -/
def cctx : Ctx := ⟨true, false, false, true, 75, fun k => if k = [2] then 2 ^ 32 + 63 else 63⟩

def addr (t : Nat) : Nat := if t < 2 ^ 60 then 16 * t + 16 else 2 ^ 64 + t

def clients (t : Nat) : Client := if t = 0 then two [1] [2] else if t = 1 then two [2] [1] else fun _ => none

theorem addr_ok (c : Ctx) (n : Nat) : (threads c n addr).Ok := by
  refine ⟨?_, ?_, ?_⟩
  · intro t u h
    simp only [threads, addr] at h
    split at h <;> split at h <;> omega
  · intro t h
    simp only [threads, addr] at h
    split at h <;> omega
  · intro t h
    simp only [threads, addr, single] at h
    split at h <;> omega

/-- Lock and use the first key in each thread. -/
def sched : List Nat := [0, 0, 1, 1]

/-- Both threads are stuck, and not because they have ended. -/
def stuck (o : Option (State Loc Sh)) : Bool :=
  match o with
  | none => false
  | some s => (stepFn (threads cctx 2 addr) 0 s).isNone && (stepFn (threads cctx 2 addr) 1 s).isNone &&
      match (threads cctx 2 addr).act (s.loc 0) with
      | .done => false
      | _ => true

end Example

/-- **C20, negation.**  Two threads whose batches store the same two keys in opposite order can reach a state from
which nothing happens any more. -/
theorem batches_deadlock : ∃ (s : State Loc Sh) (h : List Nat),
    (threads Example.cctx 2 Example.addr).Ok ∧
    Exec (threads Example.cctx 2 Example.addr) (fun t => ⟨Example.clients t, [], [], false⟩) (newCache Example.cctx) s h ∧
    Deadlock (threads Example.cctx 2 Example.addr) s := by
  have hst : Example.stuck (runSched (threads Example.cctx 2 Example.addr) Example.sched
    (start (fun t => ⟨Example.clients t, [], [], false⟩) (newCache Example.cctx))) = true := by decide +kernel
  cases hr : runSched (threads Example.cctx 2 Example.addr) Example.sched
    (start (fun t => ⟨Example.clients t, [], [], false⟩) (newCache Example.cctx)) with
  | none => rw [hr] at hst; simp [Example.stuck] at hst
  | some s =>
    rw [hr] at hst
    simp only [Example.stuck, Bool.and_eq_true, Option.isNone_iff_eq_none] at hst
    obtain ⟨⟨h0, h1⟩, h2⟩ := hst
    obtain ⟨h, he⟩ := runSched_exec .start hr
    refine ⟨s, h, Example.addr_ok _ _, he, ?_, 0, ?_⟩
    · intro t b s' hs
      by_cases ht0 : t = 0
      · subst ht0; exact stepFn_complete hs h0
      · by_cases ht1 : t = 1
        · subst ht1; exact stepFn_complete hs h1
        · obtain ⟨a1, a2, a3⟩ := runSched_other hr (u := t) (by simp [Example.sched, ht0, ht1])
          apply stepFn_complete hs
          unfold stepFn
          rw [a1, a2]
          simp [start, threads, Example.clients, ht0, ht1]
    · intro hd
      rw [hd] at h2
      simp at h2

namespace Example

/-- A batch over two keys, and one call of another thread that comes in between. -/
def mixed (t : Nat) : Client :=
  if t = 0 then two [1] [2] else if t = 1 then (fun log => if log.length = 0 then some (.one (put [2])) else none) else fun _ => none

def mixedSched : List Nat := [0, 0, 1, 1, 1, 1, 1, 0, 0, 0, 0, 0, 0]

def statuses (l : Loc) : List (List Status) := l.log.map fun a => a.map Ans.status

end Example

/-- The hypotheses of `concurrent_calls_serialise_partial` hold for an interleaving in which a call of one thread
comes between the calls of a batch of another: both end, and the batch finds the key stored. -/
example : ∃ s h, Exec (threads Example.cctx 2 Example.addr) (fun t => ⟨Example.mixed t, [], [], false⟩) (newCache Example.cctx) s h ∧
    Example.statuses (s.loc 0) = [[.inserted, .replaced]] ∧ Example.statuses (s.loc 1) = [[.inserted]] ∧ s.held 0 = [] ∧ s.held 1 = [] := by
  have hst : (match runSched (threads Example.cctx 2 Example.addr) Example.mixedSched
      (start (fun t => ⟨Example.mixed t, [], [], false⟩) (newCache Example.cctx)) with
    | none => false
    | some s => decide (Example.statuses (s.loc 0) = [[.inserted, .replaced]] ∧ Example.statuses (s.loc 1) = [[.inserted]] ∧ s.held 0 = [] ∧ s.held 1 = [])) = true := by
    decide +kernel
  split at hst
  · simp at hst
  · rename_i s hr
    obtain ⟨h, he⟩ := runSched_exec .start hr
    exact ⟨s, h, he, of_decide_eq_true hst⟩

/-! ### A call over all shards made through a batch -/

/-- Primitive steps of a script. -/
inductive Prim where
  | access (own : Bool) (i : Nat)
  | unlock (i : Nat)
  | commit

/-- Threads that follow scripts; the contents of shards do not matter here. -/
def scripts (addr : Nat → Nat) : Prog (List Prim) Unit where
  addr := addr
  act
    | [] => .done
    | .access own i :: l => .access own i fun _ => (l, ())
    | .unlock i :: l => .unlock i l
    | .commit :: l => .commit l

/-- `pogocache_count`, `pogocache_iter`, … over all shards, called with a batch
(`/repo/src/pogocache.c:1744-1751,1838-1844,1957-1966`): `ACQUIRE_FOR_SCAN_AND_EXECUTE` (1384-1395) passes `&cache` to
`acquire_for_scan`, which overwrites the variable with the cache itself (line 1340), so only the first shard is
locked for the batch; the others are locked and released as outside of any batch. -/
def scanThroughBatch (n : Nat) : List Prim :=
  .access true 0 :: (List.range' 1 (n - 1)).flatMap fun i => [.access false i, .unlock i]

/-- **C20, negation, and the reason for the restriction in C19.**  A single thread, for every number of shards from 2 on:
a batch that has used a key of shard 1 and then asks for the number of entries waits for itself for ever. -/
theorem batch_scan_deadlocks {n : Nat} (hn : 2 ≤ n) : ∃ (s : State (List Prim) Unit) (h : List Nat),
    (scripts Example.addr).Ok ∧
    Exec (scripts Example.addr) (fun t => if t = 0 then .access true 1 :: scanThroughBatch n ++ [.commit] else []) (fun _ => ()) s h ∧
    Deadlock (scripts Example.addr) s := by
  obtain ⟨m, rfl⟩ : ∃ m, n = m + 2 := ⟨n - 2, by omega⟩
  have hs : ∃ rest, scanThroughBatch (m + 2) = .access true 0 :: .access false 1 :: rest := by
    unfold scanThroughBatch
    rw [show m + 2 - 1 = m + 1 by omega, List.range'_succ]
    exact ⟨_, rfl⟩
  obtain ⟨rest, hrest⟩ := hs
  rw [hrest]
  have haddr : Example.addr 0 = 16 := by simp [Example.addr]
  have hr : ∃ s, runSched (scripts Example.addr) [0, 0, 0, 0]
      (start (fun t => if t = 0 then .access true 1 :: (.access true 0 :: .access false 1 :: rest) ++ [.commit] else []) (fun _ => ())) = some s ∧
      s.loc 0 = .access false 1 :: rest ++ [.commit] ∧ s.rel 0 = false ∧ s.held 0 = [(0, true), (1, true)] ∧ s.lock 1 = 16 := by
    simp [runSched, stepFn, scripts, start, haddr, Prog.word, update_apply]
  obtain ⟨s, hr, h1, h2, h3, h4⟩ := hr
  obtain ⟨h, he⟩ := runSched_exec .start hr
  refine ⟨s, h, ?_, he, ?_, 0, ?_⟩
  · have := Example.addr_ok Example.cctx 2
    exact ⟨this.inj, this.pos, this.ne⟩
  · intro t b s' hs
    apply stepFn_complete hs
    by_cases ht : t = 0
    · subst ht
      simp [stepFn, h1, h2, h3, h4, scripts]
    · obtain ⟨a1, a2, a3⟩ := runSched_other hr (u := t) (by simp [ht])
      unfold stepFn
      rw [a1, a2]
      simp [start, scripts, ht]
  · rw [h1]
    simp [scripts]

/-! ### Ordered batches -/

/-- A job that goes through the shards in ascending order. -/
def Job.Ascending (c : Ctx) (n : Nat) (job : Job) : Prop :=
  ∀ cur cur' k k', job.next cur = some k → job.next (cur ++ cur') = some k' → shardIdx c n k.op.key ≤ shardIdx c n k'.op.key

theorem one_ascending (c : Ctx) (n : Nat) (k : KCall) : (Job.one k).Ascending c n := by
  intro cur cur' k1 k2 h1 h2
  simp only [Job.next] at h1 h2
  split at h1
  · split at h2
    · simp only [Option.some.injEq] at h1 h2
      subst h1 h2
      exact le_refl _
    · simp at h2
  · simp at h1

/-- Locked shards belong to calls of the current job. -/
structure OrdInv (c : Ctx) (n : Nat) (s : State Loc Sh) : Prop where
  calls : ∀ t, s.rel t = false → ∀ j b, (j, b) ∈ s.held t → ∃ job cur0 cur1 k, (s.loc t).client (s.loc t).log = some job ∧
    (s.loc t).cur = cur0 ++ cur1 ∧ job.next cur0 = some k ∧ j = shardIdx c n k.op.key ∧ b = job.own
  owned : ∀ i, s.lock i ≠ 0 → ∃ t b, (i, b) ∈ s.held t

theorem OrdInv.step {c : Ctx} {n : Nat} {addr : Nat → Nat} (hp : (threads c n addr).Ok) {s s' : State Loc Sh} {t : Nat} {b : Bool}
    (hl : LockInv (threads c n addr) s) (h : OrdInv c n s) (hs : Step (threads c n addr) t s b s') : OrdInv c n s' := by
  have hl' := hl.step hp hs
  cases hs with
  | @lock own i f hr ha hl0 =>
    obtain ⟨hd, job, k, a1, a2, a3, a4, _⟩ := act_access ha
    constructor
    · intro u hu j b' hm
      by_cases hut : u = t
      · subst hut
        simp only [update_self, List.mem_cons, Prod.mk.injEq] at hm
        rcases hm with ⟨rfl, rfl⟩ | hm
        · exact ⟨job, (s.loc u).cur, [], k, a1, by simp, a2, a4, a3⟩
        · exact h.calls u hu j b' hm
      · simp only [update_of_ne hut] at hm
        exact h.calls u hu j b' hm
    · intro j hj
      by_cases hji : j = i
      · subst hji; exact ⟨t, own, by simp⟩
      · simp only [update_of_ne hji] at hj
        obtain ⟨u, b', hb⟩ := h.owned j hj
        refine ⟨u, b', ?_⟩
        by_cases hut : u = t
        · subst hut; simp [hb]
        · simp only [update_of_ne hut]; exact hb
  | @access own i f hr ha hal =>
    obtain ⟨hd, job, k, a1, a2, a3, rfl, rfl⟩ := act_access ha
    constructor
    · intro u hu j b' hm
      by_cases hut : u = t
      · subst hut
        simp only [update_self]
        obtain ⟨job', cur0, cur1, k', b1, b2, b3⟩ := h.calls u hr j b' hm
        cases hx : k.op.run c (k.mem (shardIdx c n k.op.key)) k.now (s.mem (shardIdx c n k.op.key)) with
        | val r =>
          refine ⟨job', cur0, cur1 ++ [⟨r.status, r.seen, r.evs⟩], k', b1, ?_, b3⟩
          simp [b2]
        | hang => exact ⟨job', cur0, cur1, k', b1, b2, b3⟩
        | ub => exact ⟨job', cur0, cur1, k', b1, b2, b3⟩
        | abort w => exact ⟨job', cur0, cur1, k', b1, b2, b3⟩
      · simp only [update_of_ne hut]
        exact h.calls u hu j b' hm
    · exact h.owned
  | @unlock i l _ ha _ => exact absurd ha (noUnlock_threads c n addr _ _ _)
  | @commit l hr ha =>
    constructor
    · intro u hu j b' hm
      by_cases hut : u = t
      · subst hut; simp at hu
      · simp only [update_of_ne hut] at hu ⊢
        exact h.calls u hu j b' hm
    · exact h.owned
  | @release x xs hr hx =>
    constructor
    · intro u hu j b' hm
      by_cases hut : u = t
      · subst hut; simp only [] at hu; rw [hr] at hu; simp at hu
      · simp only [update_of_ne hut] at hm
        exact h.calls u hu j b' hm
    · intro j hj
      by_cases hji : j = x.1
      · subst hji; simp at hj
      · simp only [update_of_ne hji] at hj
        obtain ⟨u, b', hb⟩ := h.owned j hj
        refine ⟨u, b', ?_⟩
        by_cases hut : u = t
        · subst hut
          rw [hx] at hb
          rcases List.mem_cons.1 hb with hb | hb
          · exact absurd (by rw [← hb]) hji
          · simp [hb]
        · simp only [update_of_ne hut]; exact hb
  | @next hr hx =>
    constructor
    · intro u hu j b' hm
      by_cases hut : u = t
      · subst hut
        simp only [] at hm
        rw [hx] at hm; simp at hm
      · simp only [update_of_ne hut] at hu
        exact h.calls u hu j b' hm
    · exact h.owned

theorem exec_ordInv {c : Ctx} {n : Nat} {addr : Nat → Nat} (hp : (threads c n addr).Ok) {loc : Nat → Loc} {mem : Shards} {s : State Loc Sh}
    {h : List Nat} (he : Exec (threads c n addr) loc mem s h) : OrdInv c n s := by
  induction he with
  | start => exact ⟨by simp [start], by simp [start]⟩
  | step hx hs ih => exact ih.step hp (hx.lockInv hp) hs

theorem exec_client {c : Ctx} {n : Nat} {addr : Nat → Nat} {clients : Nat → Client} {mem : Shards} {s : State Loc Sh}
    {h : List Nat} (he : Exec (threads c n addr) (fun t => ⟨clients t, [], [], false⟩) mem s h) (t : Nat) : (s.loc t).client = clients t := by
  induction he with
  | start => rfl
  | @step s s' h u b hx hs ih =>
    by_cases hut : t = u
    · subst hut
      cases hs with
      | lock => exact ih
      | @access own i f hr ha hal =>
        obtain ⟨hd, job, k, a1, a2, a3, rfl, rfl⟩ := act_access ha
        simp only [update_self]
        rw [← ih]
        split <;> rfl
      | @unlock i l _ ha _ => exact absurd ha (noUnlock_threads c n addr _ _ _)
      | @commit l hr ha =>
        obtain ⟨hd, job, a1, a2, rfl⟩ := act_commit ha
        simp only [update_self]
        exact ih
      | release => exact ih
      | next => exact ih
    · rw [(step_other hs hut).1]; exact ih

/-- **C20** (`_partial`: every batch must go through the shards in ascending order; otherwise see `batches_deadlock`,
`batch_scan_deadlocks`).  Any number of threads, any interleaving: as long as the process is alive and some thread has
not ended, some thread can make a step. -/
theorem ascending_batches_progress_partial {c : Ctx} {n : Nat} (hn : 0 < n) {addr : Nat → Nat} (hp : (threads c n addr).Ok)
    {clients : Nat → Client} (hasc : ∀ t log job, clients t log = some job → job.Ascending c n) {shs : Shards} {s : State Loc Sh} {h : List Nat}
    (he : Exec (threads c n addr) (fun t => ⟨clients t, [], [], false⟩) shs s h) (halive : ∀ t, (s.loc t).dead = false) :
    ¬ Deadlock (threads c n addr) s := by
  have hl := he.lockInv hp
  have ho := exec_ordInv hp he
  have hcl := exec_client he
  rintro ⟨hno, t0, ht0⟩
  -- a thread that waits for shard `i` has one behind it that waits for a higher shard
  have hrel : ∀ t, s.rel t = false := by
    intro t
    cases hr : s.rel t with
    | false => rfl
    | true =>
      exfalso
      cases hh : s.held t with
      | nil => exact hno t _ _ (.next hr hh)
      | cons x xs => exact hno t _ _ (.release hr hh)
  have hwait : ∀ t, (threads c n addr).act (s.loc t) ≠ .done → ∃ own i f, (threads c n addr).act (s.loc t) = .access own i f ∧ s.lock i ≠ 0 := by
    intro t ht
    cases ha : (threads c n addr).act (s.loc t) with
    | done => exact absurd ha ht
    | commit l => exact absurd (.commit (hrel t) ha) (hno t _ _)
    | unlock i l => exact absurd ha (noUnlock_threads c n addr _ _ _)
    | access own i f =>
      exact ⟨own, i, f, rfl, fun h0 => hno t _ _ (.lock (hrel t) ha h0)⟩
  have key : ∀ d t own i f, (threads c n addr).act (s.loc t) = .access own i f → s.lock i ≠ 0 → n - i ≤ d → False := by
    intro d
    induction d with
    | zero =>
      intro t own i f ha _ hd
      obtain ⟨_, job, k, a1, a2, a3, a4, _⟩ := act_access ha
      have := shardIdx_lt c hn k.op.key
      omega
    | succ d ih =>
      intro t own i f ha hlk hd
      obtain ⟨u, b, hub⟩ := ho.owned i hlk
      obtain ⟨job, cur0, cur1, k, b1, b2, b3, b4, b5⟩ := ho.calls u (hrel u) i b hub
      obtain ⟨_, jobt, kt, t1, t2, t3, t4, _⟩ := act_access ha
      -- the owner has not ended
      have hu : (threads c n addr).act (s.loc u) ≠ .done := by
        unfold threads
        simp only [halive u, b1]
        split
        · rename_i hnone; simp at hnone
        · split <;> simp
      obtain ⟨own', i', f', ha', hlk'⟩ := hwait u hu
      obtain ⟨_, job', k', c1, c2, c3, c4, _⟩ := act_access ha'
      rw [b1] at c1
      simp only [Option.some.injEq] at c1
      subst c1
      rw [b2] at c2
      have hasc' : job.Ascending c n := hasc u _ job (by rw [← hcl u]; exact b1)
      have hle := hasc' cur0 cur1 k k' b3 c2
      by_cases heq : i' = i
      · subst heq
        refine hno u _ _ (.access (hrel u) ha' ?_)
        have hw := hl.word u i' b hub
        rw [c3, ← b5]
        cases b with
        | true => simpa [Prog.word] using hw
        | false => simpa using hub
      · exact ih u own' i' f' ha' hlk' (by omega)
  obtain ⟨own, i, f, ha, hlk⟩ := hwait t0 ht0
  exact key (n - i) t0 own i f ha hlk (le_refl _)

/-- The hypotheses hold for two threads with batches over the same two keys in the same order. -/
example : ∀ t log job, (if t < 2 then Example.two [1] [2] else fun _ => none) log = some job → job.Ascending Example.cctx 2 := by
  intro t log job h
  have i1 : shardIdx Example.cctx 2 [1] = 0 := by decide
  split at h
  · unfold Example.two at h
    split at h
    · simp only [Option.some.injEq] at h
      subst h
      intro cur cur' k k' h1 h2
      simp only [Job.next] at h1 h2
      split at h1
      · simp only [Option.some.injEq] at h1
        subst h1
        simp [Example.put, KOp.key, i1]
      · split at h1
        · simp only [Option.some.injEq] at h1
          subst h1
          split at h2
          · rename_i hx hy hz
            simp at hz
            simp [hz.1] at hx
          · split at h2
            · simp only [Option.some.injEq] at h2
              subst h2
              exact le_refl _
            · simp at h2
        · simp at h1
    · simp at h
  · simp at h

end Verif.Conc
