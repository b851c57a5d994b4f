import Mathlib.Tactic.Common
import Mathlib.Logic.Function.Basic

/-!
The shard locks, any number of threads, all interleavings.

The memory is one state of type `S` per shard.  A thread is a deterministic program over local states `L`.  Its steps
on a shard may be as small as one likes: an API call can be one step or a long sequence of them.  Sequential
consistency is assumed (the code uses acquire/release on the lock word and no other shared data is touched outside of
the lock).
-/

namespace Verif.Conc

open Function

/-- What a thread does next.
* `access own i f`: work on shard `i`, inside an API call; `own` says whether the call was made through a batch
  (`acquire_for_key`/`acquire_for_scan`, `/repo/src/pogocache.c:1326-1365`), so that the lock is taken for the batch
  and kept.  The lock is taken first if the thread does not have it.
* `unlock i l`: the store of 0 at the end of a call not made through a batch (lines 1378, 1391), while the thread goes
  on with a batch (this happens in calls over all shards, whose macro overwrites the variable `cache`).
* `commit l`: the end of a call outside of any batch (lines 1378, 1391), or `pogocache_end` (1275-1287).
* `done`: the thread has ended. -/
inductive Act (L S : Type) where
  | access (own : Bool) (i : Nat) (f : S → L × S)
  | unlock (i : Nat) (l : L)
  | commit (l : L)
  | done

/-- Programs of all threads; `addr t` is the address of the batch of thread `t`
(`thbatch` or allocated, `/repo/src/pogocache.c:1256-1268`). -/
structure Prog (L S : Type) where
  act : L → Act L S
  addr : Nat → Nat

/-- `UINTPTR_MAX`, the lock word of calls outside of batches (`/repo/src/pogocache.c:1312-1313`). -/
def single : Nat := 2 ^ 64 - 1

/-- Batches have distinct addresses, different from 0 and `UINTPTR_MAX`. -/
structure Prog.Ok {L S : Type} (p : Prog L S) : Prop where
  inj : ∀ t u, p.addr t = p.addr u → t = u
  pos : ∀ t, p.addr t ≠ 0
  ne : ∀ t, p.addr t ≠ single

/-- A state of the whole system: shards, lock words (`shard->lock`), local states, the shards each thread has
locked with the mode (the list `batch->shard`/`shard->next`, or the local variable `shard`), and whether the thread is
releasing its locks one by one (the loop in `pogocache_end`). -/
structure State (L S : Type) where
  mem : Nat → S
  lock : Nat → Nat
  loc : Nat → L
  held : Nat → List (Nat × Bool)
  rel : Nat → Bool

variable {L S : Type}

/-- The word a thread writes into the lock. -/
def Prog.word (p : Prog L S) (t : Nat) (own : Bool) : Nat := if own then p.addr t else single

/-- One step of thread `t`; the flag tells the commits.  Failed attempts to lock change nothing and are left out. -/
inductive Step (p : Prog L S) (t : Nat) : State L S → Bool → State L S → Prop
  /-- `lock`, successful compare-and-exchange from 0, `/repo/src/pogocache.c:1293-1299,1312-1316`. -/
  | lock {s : State L S} {own : Bool} {i : Nat} {f : S → L × S} : s.rel t = false → p.act (s.loc t) = .access own i f → s.lock i = 0 →
      Step p t s false { s with lock := update s.lock i (p.word t own), held := update s.held t ((i, own) :: s.held t) }
  /-- Work on a shard: through a batch if the lock word is the batch (line 1300), otherwise after having locked it. -/
  | access {s : State L S} {own : Bool} {i : Nat} {f : S → L × S} : s.rel t = false → p.act (s.loc t) = .access own i f →
      (if own then s.lock i = p.addr t else (i, false) ∈ s.held t) →
      Step p t s false { s with mem := update s.mem i (f (s.mem i)).2, loc := update s.loc t (f (s.mem i)).1 }
  | unlock {s : State L S} {i : Nat} {l : L} : s.rel t = false → p.act (s.loc t) = .unlock i l → (i, false) ∈ s.held t →
      Step p t s false { s with lock := update s.lock i 0, held := update s.held t ((s.held t).erase (i, false)), loc := update s.loc t l }
  | commit {s : State L S} {l : L} : s.rel t = false → p.act (s.loc t) = .commit l →
      Step p t s true { s with loc := update s.loc t l, rel := update s.rel t true }
  /-- `/repo/src/pogocache.c:1278-1283`. -/
  | release {s : State L S} {x : Nat × Bool} {xs : List (Nat × Bool)} : s.rel t = true → s.held t = x :: xs →
      Step p t s false { s with lock := update s.lock x.1 0, held := update s.held t xs }
  | next {s : State L S} : s.rel t = true → s.held t = [] → Step p t s false { s with rel := update s.rel t false }

/-- The start: nothing locked. -/
def start (loc : Nat → L) (mem : Nat → S) : State L S := ⟨mem, fun _ => 0, loc, fun _ => [], fun _ => false⟩

/-- Executions: all interleavings; the list names the threads in the order of their commits. -/
inductive Exec (p : Prog L S) (loc : Nat → L) (mem : Nat → S) : State L S → List Nat → Prop
  | start : Exec p loc mem (start loc mem) []
  | step {s s' : State L S} {h : List Nat} {t : Nat} {b : Bool} : Exec p loc mem s h → Step p t s b s' →
      Exec p loc mem s' (if b then h ++ [t] else h)

/-! ### Sequential executions (specification) -/

/-- The work of one transaction (a call, or all calls of a batch) done alone, up to some point; `H` contains the
shards it uses. -/
inductive Run (p : Prog L S) (H : Nat → Prop) (l : L) (m : Nat → S) : L → (Nat → S) → Prop
  | refl : Run p H l m l m
  | access {l1 : L} {m1 : Nat → S} {own : Bool} {i : Nat} {f : S → L × S} : Run p H l m l1 m1 → H i → p.act l1 = .access own i f →
      Run p H l m (f (m1 i)).1 (update m1 i (f (m1 i)).2)

/-- A whole transaction done alone. -/
def Txn (p : Prog L S) (l : L) (m : Nat → S) (l' : L) (m' : Nat → S) : Prop :=
  ∃ l1, Run p (fun _ => True) l m l1 m' ∧ p.act l1 = .commit l'

/-- Transactions of the given threads done one after the other, without any locks. -/
inductive Serial (p : Prog L S) (loc : Nat → L) (mem : Nat → S) : List Nat → (Nat → L) → (Nat → S) → Prop
  | nil : Serial p loc mem [] loc mem
  | snoc {h : List Nat} {loc1 : Nat → L} {mem1 mem' : Nat → S} {t : Nat} {l' : L} : Serial p loc mem h loc1 mem1 →
      Txn p (loc1 t) mem1 l' mem' → Serial p loc mem (h ++ [t]) (update loc1 t l') mem'

/-- No lock is given back before the end of its transaction. -/
def NoUnlock (p : Prog L S) : Prop := ∀ l i l', p.act l ≠ .unlock i l'

/-! ### Locks -/

/-- Lock words and lists of locked shards agree. -/
structure LockInv (p : Prog L S) (s : State L S) : Prop where
  free : ∀ i, s.lock i = 0 → ∀ t b, (i, b) ∉ s.held t
  word : ∀ t i b, (i, b) ∈ s.held t → s.lock i = p.word t b
  mine : ∀ t i, s.lock i = p.addr t → (i, true) ∈ s.held t
  excl : ∀ t u i b b', (i, b) ∈ s.held t → (i, b') ∈ s.held u → t = u ∧ b = b'
  nodup : ∀ t, (s.held t).Nodup

theorem word_ne {p : Prog L S} (hp : p.Ok) (t : Nat) (b : Bool) : p.word t b ≠ 0 := by
  unfold Prog.word
  split
  · exact hp.pos t
  · unfold single; omega

theorem lockInv_release {p : Prog L S} (hp : p.Ok) {s : State L S} (h : LockInv p s) {t : Nat} {x : Nat × Bool} {xs : List (Nat × Bool)}
    (hx : x ∈ s.held t) (hn : x ∉ xs) (hsub : ∀ y, y ∈ xs ↔ y ∈ s.held t ∧ y ≠ x) (hnd : xs.Nodup) (loc : Nat → L) (rel : Nat → Bool) :
    LockInv p { s with lock := update s.lock x.1 0, held := update s.held t xs, loc := loc, rel := rel } := by
  obtain ⟨i, b⟩ := x
  have hother : ∀ u j b', (j, b') ∈ (update s.held t xs) u → (j, b') ∈ s.held u ∧ j ≠ i := by
    intro u j b' hj
    by_cases hu : u = t
    · subst hu
      rw [update_self] at hj
      obtain ⟨h1, h2⟩ := (hsub _).1 hj
      refine ⟨h1, ?_⟩
      rintro rfl
      exact h2 (by rw [(h.excl u u j b' b h1 hx).2])
    · rw [update_of_ne hu] at hj
      refine ⟨hj, ?_⟩
      rintro rfl
      exact hu (h.excl u t j b' b hj hx).1
  constructor
  · intro j hj u b' hm
    obtain ⟨h1, h2⟩ := hother u j b' hm
    simp only [update_of_ne h2] at hj
    exact h.free j hj u b' h1
  · intro u j b' hm
    obtain ⟨h1, h2⟩ := hother u j b' hm
    simp only [update_of_ne h2]
    exact h.word u j b' h1
  · intro u j hj
    by_cases hji : j = i
    · subst hji
      simp only [update_self] at hj
      exact absurd hj.symm (hp.pos u)
    · simp only [update_of_ne hji] at hj
      have := h.mine u j hj
      show (j, true) ∈ (update s.held t xs) u
      by_cases hu : u = t
      · subst hu
        rw [update_self]
        exact (hsub _).2 ⟨this, by simp [hji]⟩
      · rw [update_of_ne hu]; exact this
  · intro u v j b1 b2 h1 h2
    exact h.excl u v j b1 b2 (hother u j b1 h1).1 (hother v j b2 h2).1
  · intro u
    show ((update s.held t xs) u).Nodup
    by_cases hu : u = t
    · subst hu; rw [update_self]; exact hnd
    · rw [update_of_ne hu]; exact h.nodup u

theorem LockInv.step {p : Prog L S} (hp : p.Ok) {s s' : State L S} {t : Nat} {b : Bool} (h : LockInv p s) (hs : Step p t s b s') :
    LockInv p s' := by
  cases hs with
  | @lock own i f _ _ hl =>
    have hfree := h.free i hl
    constructor
    · intro j hj u b' hm
      by_cases hji : j = i
      · subst hji
        simp only [update_self] at hj
        exact word_ne hp _ _ hj
      · simp only [update_of_ne hji] at hj
        by_cases hu : u = t
        · subst hu
          simp only [update_self, List.mem_cons, Prod.mk.injEq, hji, false_and, false_or] at hm
          exact h.free j hj _ _ hm
        · simp only [update_of_ne hu] at hm
          exact h.free j hj _ _ hm
    · intro u j b' hm
      by_cases hu : u = t
      · subst hu
        simp only [update_self, List.mem_cons, Prod.mk.injEq] at hm
        rcases hm with ⟨rfl, rfl⟩ | hm
        · simp
        · have hji : j ≠ i := by rintro rfl; exact hfree _ _ hm
          simp only [update_of_ne hji]
          exact h.word _ _ _ hm
      · simp only [update_of_ne hu] at hm
        have hji : j ≠ i := by rintro rfl; exact hfree _ _ hm
        simp only [update_of_ne hji]
        exact h.word _ _ _ hm
    · intro u j hj
      by_cases hji : j = i
      · subst hji
        simp only [update_self] at hj
        unfold Prog.word at hj
        cases own with
        | true =>
          simp only [if_true] at hj
          have := hp.inj _ _ hj
          subst this
          simp
        | false =>
          exact absurd hj.symm (hp.ne u)
      · simp only [update_of_ne hji] at hj
        have := h.mine u j hj
        by_cases hu : u = t
        · subst hu; simp [this]
        · simp only [update_of_ne hu]; exact this
    · intro u v j b1 b2 h1 h2
      have key : ∀ w b, (j, b) ∈ (update s.held t ((i, own) :: s.held t)) w → (w = t ∧ j = i ∧ b = own) ∨ ((j, b) ∈ s.held w ∧ j ≠ i) := by
        intro w b hb
        by_cases hw : w = t
        · subst hw
          rw [update_self, List.mem_cons, Prod.mk.injEq] at hb
          rcases hb with hb | hb
          · exact Or.inl ⟨rfl, hb⟩
          · exact Or.inr ⟨hb, by rintro rfl; exact hfree _ _ hb⟩
        · rw [update_of_ne hw] at hb
          exact Or.inr ⟨hb, by rintro rfl; exact hfree _ _ hb⟩
      rcases key u b1 h1 with ⟨rfl, rfl, rfl⟩ | ⟨g1, g1'⟩ <;> rcases key v b2 h2 with ⟨rfl, e2, rfl⟩ | ⟨g2, g2'⟩
      · exact ⟨rfl, rfl⟩
      · exact absurd rfl g2'
      · exact absurd e2 g1'
      · exact h.excl u v j b1 b2 g1 g2
    · intro u
      by_cases hu : u = t
      · subst hu
        simp only [update_self, List.nodup_cons]
        exact ⟨hfree _ _, h.nodup _⟩
      · simp only [update_of_ne hu]; exact h.nodup u
  | access _ _ _ => exact ⟨h.free, h.word, h.mine, h.excl, h.nodup⟩
  | @unlock i l _ _ hm =>
    apply lockInv_release hp h hm (x := (i, false))
    · exact (h.nodup t).not_mem_erase
    · intro y
      rw [(h.nodup t).mem_erase_iff]
      exact and_comm
    · exact (h.nodup t).erase _
  | commit _ _ => exact ⟨h.free, h.word, h.mine, h.excl, h.nodup⟩
  | @release x xs _ hx =>
    have hnd := h.nodup t
    rw [hx] at hnd
    have hnd' := List.nodup_cons.1 hnd
    apply lockInv_release hp h (x := x) (xs := xs) (by rw [hx]; simp) hnd'.1
    · intro y
      rw [hx, List.mem_cons]
      constructor
      · intro hy; exact ⟨Or.inr hy, by rintro rfl; exact hnd'.1 hy⟩
      · rintro ⟨rfl | hy, hne⟩
        · exact absurd rfl hne
        · exact hy
    · exact hnd'.2
  | next _ _ => exact ⟨h.free, h.word, h.mine, h.excl, h.nodup⟩

theorem lockInv_start {p : Prog L S} (hp : p.Ok) (loc : Nat → L) (mem : Nat → S) : LockInv p (start loc mem) :=
  ⟨by simp [start], by simp [start], fun t i h => absurd h.symm (hp.pos t), by simp [start], by simp [start]⟩

theorem Exec.lockInv {p : Prog L S} (hp : p.Ok) {loc : Nat → L} {mem : Nat → S} {s : State L S} {h : List Nat}
    (he : Exec p loc mem s h) : LockInv p s := by
  induction he with
  | start => exact lockInv_start hp loc mem
  | step _ hs ih => exact ih.step hp hs

/-! ### Serialisability -/

theorem Run.mono {p : Prog L S} {H H' : Nat → Prop} {l l1 : L} {m m1 : Nat → S} (h : Run p H l m l1 m1) (hH : ∀ i, H i → H' i) :
    Run p H' l m l1 m1 := by
  induction h with
  | refl => exact .refl
  | access _ hi ha ih => exact .access ih (hH _ hi) ha

/-- The same work in a memory that agrees on the shards used. -/
theorem Run.change {p : Prog L S} {H : Nat → Prop} {l l1 : L} {m m1 m' : Nat → S} (h : Run p H l m l1 m1) (hm : ∀ i, H i → m' i = m i) :
    ∃ m1', Run p H l m' l1 m1' ∧ (∀ i, H i → m1' i = m1 i) ∧ ∀ i, ¬ H i → m1' i = m' i := by
  induction h with
  | refl => exact ⟨m', .refl, hm, fun _ _ => rfl⟩
  | @access l1 m1 own i f hr hi ha ih =>
    obtain ⟨m1', h1, h2, h3⟩ := ih
    have h4 := Run.access h1 hi ha
    rw [h2 i hi] at h4
    refine ⟨_, h4, ?_, ?_⟩
    · intro j hj
      by_cases hji : j = i
      · subst hji; simp
      · rw [update_of_ne hji, update_of_ne hji]; exact h2 j hj
    · intro j hj
      rw [update_of_ne (by rintro rfl; exact hj hi)]
      exact h3 j hj

theorem Run.outside {p : Prog L S} {H : Nat → Prop} {l l1 : L} {m m1 : Nat → S} (h : Run p H l m l1 m1) :
    ∀ i, ¬ H i → m1 i = m i := by
  induction h with
  | refl => intros; rfl
  | access _ hi ha ih =>
    intro j hj
    rw [update_of_ne (by rintro rfl; exact hj hi)]
    exact ih j hj

/-- Shards locked by a thread. -/
def State.Has (s : State L S) (t i : Nat) : Prop := ∃ b, (i, b) ∈ s.held t

/-- How a concurrent state relates to the sequential state `locA`, `memA` after the committed transactions. -/
structure Sim (p : Prog L S) (s : State L S) (locA : Nat → L) (memA : Nat → S) : Prop where
  /-- a thread inside a transaction has done alone, on the committed memory, what it has done -/
  run : ∀ t, s.rel t = false → ∃ m1, Run p (s.Has t) (locA t) memA (s.loc t) m1 ∧ ∀ i, s.Has t i → m1 i = s.mem i
  /-- a thread giving back its locks has committed -/
  rel : ∀ t, s.rel t = true → s.loc t = locA t ∧ ∀ i, s.Has t i → s.mem i = memA i
  free : ∀ i, (∀ t, ¬ s.Has t i) → s.mem i = memA i

theorem sim_step {p : Prog L S} (hp : p.Ok) (hnu : NoUnlock p) {s s' : State L S} {t : Nat} {b : Bool} {loc0 : Nat → L}
    {mem0 : Nat → S} {h : List Nat} {locA : Nat → L} {memA : Nat → S} (hl : LockInv p s) (hser : Serial p loc0 mem0 h locA memA)
    (hsim : Sim p s locA memA) (hs : Step p t s b s') :
    ∃ locA' memA', Serial p loc0 mem0 (if b then h ++ [t] else h) locA' memA' ∧ Sim p s' locA' memA' := by
  have hexcl : ∀ u i, s.Has t i → s.Has u i → u = t := by
    rintro u i ⟨b1, h1⟩ ⟨b2, h2⟩
    exact (hl.excl u t i b2 b1 h2 h1).1
  cases hs with
  | @lock own i f hr ha hl0 =>
    refine ⟨locA, memA, hser, ?_⟩
    have hfree : ∀ u, ¬ s.Has u i := fun u ⟨b, hb⟩ => hl.free i hl0 u b hb
    have hhas : ∀ u j, State.Has { s with lock := update s.lock i (p.word t own), held := update s.held t ((i, own) :: s.held t) } u j ↔
        s.Has u j ∨ (u = t ∧ j = i) := by
      intro u j
      unfold State.Has
      by_cases hu : u = t
      · subst hu
        simp only [update_self, List.mem_cons, Prod.mk.injEq]
        constructor
        · rintro ⟨b, ⟨rfl, rfl⟩ | hb⟩
          · exact Or.inr ⟨trivial, rfl⟩
          · exact Or.inl ⟨b, hb⟩
        · rintro (⟨b, hb⟩ | ⟨_, rfl⟩)
          · exact ⟨b, Or.inr hb⟩
          · exact ⟨own, Or.inl ⟨rfl, rfl⟩⟩
      · simp [update_of_ne hu, hu]
    constructor
    · intro u hu
      obtain ⟨m1, h1, h2⟩ := hsim.run u hu
      refine ⟨m1, h1.mono fun j hj => (hhas u j).2 (Or.inl hj), ?_⟩
      intro j hj
      rcases (hhas u j).1 hj with hj | ⟨rfl, rfl⟩
      · exact h2 j hj
      · rw [h1.outside j (hfree u)]
        exact (hsim.free j hfree).symm
    · intro u hu
      have hut : u ≠ t := by rintro rfl; simp only [] at hu; rw [hr] at hu; simp at hu
      obtain ⟨h1, h2⟩ := hsim.rel u hu
      refine ⟨h1, fun j hj => ?_⟩
      rcases (hhas u j).1 hj with hj | ⟨h3, _⟩
      · exact h2 j hj
      · exact absurd h3 hut
    · intro j hj
      exact hsim.free j fun u hu => hj u ((hhas u j).2 (Or.inl hu))
  | @access own i f hr ha hal =>
    refine ⟨locA, memA, hser, ?_⟩
    have hti : s.Has t i := by
      cases own with
      | true => exact ⟨true, hl.mine t i (by simpa using hal)⟩
      | false => exact ⟨false, by simpa using hal⟩
    constructor
    · intro u hu
      obtain ⟨m1, h1, h2⟩ := hsim.run u hu
      by_cases hut : u = t
      · subst hut
        have h3 := Run.access h1 hti ha
        rw [h2 i hti] at h3
        simp only [update_self]
        refine ⟨_, h3, ?_⟩
        intro j hj
        by_cases hji : j = i
        · subst hji; simp
        · rw [update_of_ne hji, update_of_ne hji]; exact h2 j hj
      · simp only [update_of_ne hut]
        refine ⟨m1, h1, ?_⟩
        intro j hj
        have hji : j ≠ i := by rintro rfl; exact hut (hexcl u j hti hj)
        rw [update_of_ne hji]; exact h2 j hj
    · intro u hu
      have hut : u ≠ t := by rintro rfl; simp only [] at hu; rw [hr] at hu; simp at hu
      obtain ⟨h1, h2⟩ := hsim.rel u hu
      refine ⟨by simp only [update_of_ne hut]; exact h1, fun j hj => ?_⟩
      have hji : j ≠ i := by rintro rfl; exact hut (hexcl u j hti hj)
      simp only [update_of_ne hji]; exact h2 j hj
    · intro j hj
      have hji : j ≠ i := by rintro rfl; exact hj t hti
      simp only [update_of_ne hji]; exact hsim.free j hj
  | @unlock i l _ ha _ => exact absurd ha (hnu _ _ _)
  | @commit l hr ha =>
    obtain ⟨m1, h1, h2⟩ := hsim.run t hr
    refine ⟨update locA t l, m1, .snoc hser ⟨_, h1.mono fun _ _ => trivial, ha⟩, ?_⟩
    have hsame : ∀ i, ¬ s.Has t i → m1 i = memA i := h1.outside
    constructor
    · intro u hu
      by_cases hut : u = t
      · subst hut; simp at hu
      · simp only [update_of_ne hut] at hu ⊢
        obtain ⟨m2, g1, g2⟩ := hsim.run u hu
        have hag : ∀ i, s.Has u i → m1 i = memA i := fun i hi => hsame i fun hti => hut (hexcl u i hti hi)
        obtain ⟨m3, k1, k2, _⟩ := g1.change hag
        exact ⟨m3, k1, fun i hi => by rw [k2 i hi, g2 i hi]⟩
    · intro u hu
      by_cases hut : u = t
      · subst hut
        refine ⟨by simp, fun i hi => ?_⟩
        exact (h2 i hi).symm
      · simp only [update_of_ne hut] at hu ⊢
        obtain ⟨g1, g2⟩ := hsim.rel u hu
        refine ⟨g1, fun i hi => ?_⟩
        rw [hsame i fun hti => hut (hexcl u i hti hi)]
        exact g2 i hi
    · intro i hi
      rw [hsame i (hi t)]
      exact hsim.free i hi
  | @release x xs hr hx =>
    refine ⟨locA, memA, hser, ?_⟩
    have hhas : ∀ u j, State.Has { s with lock := update s.lock x.1 0, held := update s.held t xs } u j → s.Has u j := by
      rintro u j ⟨b, hb⟩
      by_cases hu : u = t
      · subst hu
        simp only [update_self] at hb
        exact ⟨b, by rw [hx]; simp [hb]⟩
      · simp only [update_of_ne hu] at hb; exact ⟨b, hb⟩
    have hne : ∀ u, u ≠ t → ∀ j, State.Has { s with lock := update s.lock x.1 0, held := update s.held t xs } u j ↔ s.Has u j := by
      intro u hu j
      unfold State.Has
      simp only [update_of_ne hu]
    constructor
    · intro u hu
      have hut : u ≠ t := by rintro rfl; simp only [] at hu; rw [hr] at hu; simp at hu
      obtain ⟨m1, h1, h2⟩ := hsim.run u hu
      exact ⟨m1, h1.mono fun j hj => (hne u hut j).2 hj, fun j hj => h2 j (hhas u j hj)⟩
    · intro u hu
      obtain ⟨h1, h2⟩ := hsim.rel u hu
      exact ⟨h1, fun j hj => h2 j (hhas u j hj)⟩
    · intro j hj
      by_cases hjt : s.Has t j
      · exact (hsim.rel t hr).2 j hjt
      · apply hsim.free j
        intro u hu
        by_cases hut : u = t
        · subst hut; exact hjt hu
        · exact hj u ((hne u hut j).2 hu)
  | @next hr hx =>
    refine ⟨locA, memA, hser, ?_⟩
    constructor
    · intro u hu
      by_cases hut : u = t
      · subst hut
        obtain ⟨h1, h2⟩ := hsim.rel u hr
        simp only []
        rw [h1]
        refine ⟨memA, .refl, ?_⟩
        rintro i ⟨b, hb⟩
        simp only [] at hb
        rw [hx] at hb
        simp at hb
      · simp only [update_of_ne hut] at hu
        exact hsim.run u hu
    · intro u hu
      by_cases hut : u = t
      · subst hut; simp at hu
      · simp only [update_of_ne hut] at hu
        exact hsim.rel u hu
    · exact hsim.free

theorem exec_sim {p : Prog L S} (hp : p.Ok) (hnu : NoUnlock p) {loc : Nat → L} {mem : Nat → S} {s : State L S} {h : List Nat}
    (he : Exec p loc mem s h) : ∃ locA memA, Serial p loc mem h locA memA ∧ Sim p s locA memA := by
  induction he with
  | start =>
    refine ⟨loc, mem, .nil, ?_, ?_, ?_⟩
    · intro t _
      exact ⟨mem, .refl, by rintro i ⟨b, hb⟩; simp [start] at hb⟩
    · intro t ht; simp [start] at ht
    · intro i _; rfl
  | step hx hs ih =>
    obtain ⟨locA, memA, h1, h2⟩ := ih
    exact sim_step hp hnu (hx.lockInv hp) h1 h2 hs

end Verif.Conc
