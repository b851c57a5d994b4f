import Verif.Conc.Model
import Verif.Cache.Cursor

/-!
C19, C20: threads calling the cache, alone or in batches.
-/

namespace Verif.Conc

open Verif.Cache Verif.Shard Verif.Map Function

/-- What a caller gets back from a call: status, what was shown to callbacks, notifications. -/
structure Ans where
  status : Status
  seen : List Ent
  evs : List Ev

/-- A call on a key: `pogocache_load`, `pogocache_store`, `pogocache_delete`. -/
inductive KOp where
  | load (key : Bytes) (o : LoadOpts)
  | store (key val : Bytes) (o : StoreOpts)
  | delete (key : Bytes) (cb : Option (Ent → Bool))

def KOp.key : KOp → Bytes
  | .load k _ | .store k _ _ | .delete k _ => k

def KOp.op : KOp → Op
  | .load k o => .load k o
  | .store k v o => .store k v o
  | .delete k cb => .delete k cb

/-- The work done under the lock: `loadop`, `storeop`, `deleteop`
(`/repo/src/pogocache.c:1396-1645`). -/
def KOp.run (c : Ctx) (mem : Mem) (now : Int) : KOp → Sh → Out Res
  | .load k o => loadOp c mem now k o
  | .store k v o => storeOp c mem now k v o
  | .delete k cb => deleteOp c mem now k cb

structure KCall where
  op : KOp
  mem : Nat → Mem
  now : Int

/-- A single call, or a batch whose next call may depend on the answers so far (as in `execINCRDECR`,
`/repo/src/cmds.c:1668-1769`); `none` ends the batch. -/
inductive Job where
  | one (k : KCall)
  | batch (next : List Ans → Option KCall)

/-- The next call of a job after the given answers. -/
def Job.next : Job → List Ans → Option KCall
  | .one k, cur => if cur.isEmpty then some k else none
  | .batch f, cur => f cur

def Job.own : Job → Bool
  | .one _ => false
  | .batch _ => true

/-- A client decides on its next job from the answers to the earlier ones, or ends. -/
abbrev Client := List (List Ans) → Option Job

/-- Local state of a thread: answers of the finished jobs, answers of the current one, and whether the process has
been killed by a failed assertion or undefined behaviour. -/
structure Loc where
  client : Client
  log : List (List Ans)
  cur : List Ans
  dead : Bool

/-- The threads.  The work under the lock is one step here; `Conc.Model` allows any subdivision. -/
def threads (c : Ctx) (n : Nat) (addr : Nat → Nat) : Prog Loc Sh where
  addr := addr
  act l :=
    if l.dead then .done
    else match l.client l.log with
    | none => .done
    | some job => match job.next l.cur with
      | none => .commit { l with log := l.log ++ [l.cur], cur := [] }
      | some k => .access job.own (shardIdx c n k.op.key) fun s =>
        match k.op.run c (k.mem (shardIdx c n k.op.key)) k.now s with
        | .val r => ({ l with cur := l.cur ++ [⟨r.status, r.seen, r.evs⟩] }, r.sh)
        | _ => ({ l with dead := true }, s)

/-! ### Specification: one job after the other, no threads, no locks -/

/-- The calls of a job made one after the other: answers and cache. -/
inductive JobPart (c : Ctx) (n : Nat) (job : Job) (shs : Shards) : List Ans → Shards → Prop
  | nil : JobPart c n job shs [] shs
  | call {cur : List Ans} {shs1 : Shards} {k : KCall} {r : CRes} : JobPart c n job shs cur shs1 → job.next cur = some k →
      exec c n k.mem k.now k.op.op shs1 = .val r → JobPart c n job shs (cur ++ [⟨r.status, r.seen, r.evs⟩]) r.shs

/-- Jobs of the given threads done one after the other; `logs` has the answers each thread gets. -/
inductive Sequential (c : Ctx) (n : Nat) (clients : Nat → Client) (shs : Shards) :
    List Nat → (Nat → List (List Ans)) → Shards → Prop
  | nil : Sequential c n clients shs [] (fun _ => []) shs
  | job {h : List Nat} {logs : Nat → List (List Ans)} {shs1 shs2 : Shards} {t : Nat} {job : Job} {ans : List Ans} :
      Sequential c n clients shs h logs shs1 → clients t (logs t) = some job → JobPart c n job shs1 ans shs2 → job.next ans = none →
      Sequential c n clients shs (h ++ [t]) (update logs t (logs t ++ [ans])) shs2

/-! ### C19 -/

theorem noUnlock_threads (c : Ctx) (n : Nat) (addr : Nat → Nat) : NoUnlock (threads c n addr) := by
  intro l i l' h
  unfold threads at h
  simp only [] at h
  split at h
  · simp at h
  · split at h
    · simp at h
    · split at h <;> simp at h

/-- What an access of a thread is. -/
theorem act_access {c : Ctx} {n : Nat} {addr : Nat → Nat} {l : Loc} {own : Bool} {i : Nat} {f : Sh → Loc × Sh}
    (h : (threads c n addr).act l = .access own i f) : l.dead = false ∧ ∃ job k, l.client l.log = some job ∧ job.next l.cur = some k ∧
      own = job.own ∧ i = shardIdx c n k.op.key ∧ f = fun s =>
        match k.op.run c (k.mem (shardIdx c n k.op.key)) k.now s with
        | .val r => ({ l with cur := l.cur ++ [⟨r.status, r.seen, r.evs⟩] }, r.sh)
        | _ => ({ l with dead := true }, s) := by
  unfold threads at h
  simp only [] at h
  split at h
  · simp at h
  · rename_i hd
    split at h
    · simp at h
    · rename_i job hj
      split at h
      · simp at h
      · rename_i k hk
        simp only [Act.access.injEq] at h
        exact ⟨by simpa using hd, job, k, hj, hk, h.1.symm, h.2.1.symm, h.2.2.symm⟩

theorem act_commit {c : Ctx} {n : Nat} {addr : Nat → Nat} {l l' : Loc}
    (h : (threads c n addr).act l = .commit l') : l.dead = false ∧ ∃ job, l.client l.log = some job ∧ job.next l.cur = none ∧
      l' = { l with log := l.log ++ [l.cur], cur := [] } := by
  unfold threads at h
  simp only [] at h
  split at h
  · simp at h
  · rename_i hd
    split at h
    · simp at h
    · rename_i job hj
      split at h
      · rename_i hk
        simp only [Act.commit.injEq] at h
        exact ⟨by simpa using hd, job, hj, hk, h.symm⟩
      · simp at h

theorem kop_exec {c : Ctx} {n : Nat} {k : KCall} {shs : Shards} {r : Res}
    (h : k.op.run c (k.mem (shardIdx c n k.op.key)) k.now (shs (shardIdx c n k.op.key)) = .val r) :
    exec c n k.mem k.now k.op.op shs = .val ⟨update shs (shardIdx c n k.op.key) r.sh, r.status, r.evs, r.seen⟩ := by
  cases k with
  | mk op mem now =>
    cases op <;>
    · unfold exec KOp.op onKey
      simp only [KOp.run, KOp.key] at h ⊢
      rw [h]
      rfl

/-- The work of a thread since its last job, done alone. -/
theorem run_part {c : Ctx} {n : Nat} {addr : Nat → Nat} {H : Nat → Prop} {l l1 : Loc} {m m1 : Shards} (hcur : l.cur = []) (hdead : l.dead = false)
    (h : Run (threads c n addr) H l m l1 m1) : l1.client = l.client ∧ l1.log = l.log ∧
      (l1.dead = false → ∀ job, l.client l.log = some job → JobPart c n job m l1.cur m1) := by
  induction h with
  | refl =>
    refine ⟨rfl, rfl, fun _ job _ => ?_⟩
    rw [hcur]; exact .nil
  | @access l1 m1 own i f hr hi ha ih =>
    obtain ⟨h1, h2, h3⟩ := ih
    obtain ⟨hd, job, k, a1, a2, a3, rfl, rfl⟩ := act_access ha
    simp only []
    cases hx : k.op.run c (k.mem (shardIdx c n k.op.key)) k.now (m1 (shardIdx c n k.op.key)) with
    | val r =>
      simp only []
      refine ⟨h1, h2, ?_⟩
      intro _ job' hjob'
      rw [h1, h2, hjob'] at a1
      simp only [Option.some.injEq] at a1
      subst a1
      exact JobPart.call (h3 hd _ hjob') a2 (kop_exec hx)
    | hang => exact ⟨h1, h2, by simp⟩
    | ub => exact ⟨h1, h2, by simp⟩
    | abort w => exact ⟨h1, h2, by simp⟩

theorem serial_sequential {c : Ctx} {n : Nat} {addr : Nat → Nat} {clients : Nat → Client} {shs : Shards} {h : List Nat}
    {loc : Nat → Loc} {mem : Shards} (hs : Serial (threads c n addr) (fun t => ⟨clients t, [], [], false⟩) shs h loc mem) :
    (∀ t, (loc t).client = clients t ∧ (loc t).cur = [] ∧ (loc t).dead = false) ∧
      Sequential c n clients shs h (fun t => (loc t).log) mem := by
  induction hs with
  | nil => exact ⟨fun _ => ⟨rfl, rfl, rfl⟩, .nil⟩
  | @snoc h loc1 mem1 mem' t l' _ ht ih =>
    obtain ⟨ih1, ih2⟩ := ih
    obtain ⟨l1, hrun, hact⟩ := ht
    obtain ⟨hd, job, hj, hn, rfl⟩ := act_commit hact
    obtain ⟨hc1, hc2, hc3⟩ := ih1 t
    obtain ⟨r1, r2, r3⟩ := run_part hc2 hc3 hrun
    refine ⟨?_, ?_⟩
    · intro u
      by_cases hu : u = t
      · subst hu
        simp only [update_self]
        exact ⟨by rw [r1, hc1], trivial, hd⟩
      · rw [update_of_ne hu]; exact ih1 u
    · have hj' : clients t ((loc1 t).log) = some job := by rw [← hc1, ← r2, ← r1]; exact hj
      have := Sequential.job ih2 hj' (r3 hd job (by rw [hc1]; exact hj')) hn
      have he : (fun u => (update loc1 t { l1 with log := l1.log ++ [l1.cur], cur := [] } u).log) =
          update (fun u => (loc1 u).log) t ((loc1 t).log ++ [l1.cur]) := by
        funext u
        by_cases hu : u = t
        · subst hu; simp [r2]
        · rw [update_of_ne hu, update_of_ne hu]
      rw [he]
      exact this

/-- **C19** (`_partial`: calls on keys; calls over all shards made through a batch are excluded, see
`batch_scan_deadlocks`).  For any number of threads, any clients, any interleaving: at every moment the answers the
threads have got from their finished calls and batches are those of a sequential execution of these calls and
batches, in the order in which they finished; and when every thread has ended, the cache is that of the sequential
execution. -/
theorem concurrent_calls_serialise_partial {c : Ctx} {n : Nat} {addr : Nat → Nat} (ha : (threads c n addr).Ok) {clients : Nat → Client}
    {shs : Shards} {s : State Loc Sh} {h : List Nat}
    (he : Exec (threads c n addr) (fun t => ⟨clients t, [], [], false⟩) shs s h) :
    ∃ final, Sequential c n clients shs h (fun t => (s.loc t).log) final ∧
      ((∀ t, s.held t = []) → final = s.mem) := by
  obtain ⟨locA, memA, h1, h2⟩ := exec_sim ha (noUnlock_threads c n addr) he
  obtain ⟨h3, h4⟩ := serial_sequential h1
  refine ⟨memA, ?_, ?_⟩
  · have : (fun t => (s.loc t).log) = fun t => (locA t).log := by
      funext t
      cases hr : s.rel t with
      | true => rw [(h2.rel t hr).1]
      | false =>
        obtain ⟨m1, g1, _⟩ := h2.run t hr
        exact (run_part (h3 t).2.1 (h3 t).2.2 g1).2.1
    rw [this]
    exact h4
  · intro hh
    funext i
    refine (h2.free i ?_).symm
    rintro t ⟨b, hb⟩
    rw [hh t] at hb
    simp at hb

/-- **C19**, isolation: while a thread has a shard locked (from its first call on the shard to the end of the call or
the batch) no step of another thread changes the shard or takes the lock. -/
theorem locked_shard_is_isolated {L S : Type} {p : Prog L S} (hp : p.Ok) {loc : Nat → L} {mem : Nat → S} {s s' : State L S} {h : List Nat}
    (he : Exec p loc mem s h) {t u i : Nat} {b b' : Bool} (hi : (i, b) ∈ s.held t) (hu : u ≠ t) (hs : Step p u s b' s') :
    s'.mem i = s.mem i ∧ s'.lock i = s.lock i ∧ (i, b) ∈ s'.held t ∧ ∀ b'', (i, b'') ∉ s'.held u := by
  have hl := he.lockInv hp
  have hne : ∀ b'', (i, b'') ∉ s.held u := fun b'' hb => hu (hl.excl u t i b'' b hb hi).1
  have hw := hl.word t i b hi
  have ht : t ≠ u := fun h => hu h.symm
  cases hs with
  | @lock own j f _ _ hl0 =>
    have hji : i ≠ j := by
      rintro rfl
      rw [hl0] at hw
      exact word_ne hp _ _ hw.symm
    refine ⟨rfl, by simp only [update_of_ne hji], by simp only [update_of_ne ht]; exact hi, ?_⟩
    intro b'' hb
    simp only [update_self, List.mem_cons, Prod.mk.injEq, hji, false_and, false_or] at hb
    exact hne b'' hb
  | @access own j f _ _ hal =>
    have hji : i ≠ j := by
      rintro rfl
      cases own with
      | true => exact hne true (hl.mine u i (by simpa using hal))
      | false => exact hne false (by simpa using hal)
    exact ⟨by simp only [update_of_ne hji], rfl, hi, hne⟩
  | @unlock j l _ _ hm =>
    have hji : i ≠ j := by rintro rfl; exact hne false hm
    refine ⟨rfl, by simp only [update_of_ne hji], by simp only [update_of_ne ht]; exact hi, ?_⟩
    intro b'' hb
    simp only [update_self] at hb
    exact hne b'' (List.mem_of_mem_erase hb)
  | commit _ _ => exact ⟨rfl, rfl, hi, hne⟩
  | @release x xs _ hx =>
    have hji : i ≠ x.1 := by
      rintro rfl
      exact hne x.2 (by rw [hx]; simp)
    refine ⟨rfl, by simp only [update_of_ne hji], by simp only [update_of_ne ht]; exact hi, ?_⟩
    intro b'' hb
    simp only [update_self] at hb
    exact hne b'' (by rw [hx]; simp [hb])
  | next _ _ => exact ⟨rfl, rfl, hi, hne⟩

end Verif.Conc
