import Mathlib.Tactic.Common

/-!
C50, C62: admission of connections by the worker threads, `/repo/src/net.c:619-643, 868-884`.

Each atomic operation on `nconns` is one step; the threads take their steps in any order.  Left out: the statistics counters (`tconns`,
`rconns`, `ctx->nconns`), which decide nothing.  `nconns` is a number without bound; by `Inv.count` it never exceeds the number of
connections and threads, so it cannot wrap around.
-/

namespace Verif.Net.Admit

/-- Where a worker thread is: elsewhere; between the refusal and line 623; between line 619 and line 643; between lines 876 and 880. -/
inductive Pc where
  | idle | rejecting | accepting | closing
deriving DecidableEq, Repr

/-- A worker thread and the number of its connections. -/
structure Th where
  pc : Pc
  conns : Nat
deriving DecidableEq, Repr

/-- The counter `nconns`, `/repo/src/net.c:424`, and the threads. -/
structure St where
  count : Nat
  ths : List Th
deriving DecidableEq, Repr

/-- What a thread may do next. -/
inductive Act where
  | arrive | refuse | accept | tlsFail | close | closed
deriving DecidableEq, Repr

/-- One step of a thread `t`, with the counter; `none` if it cannot do that now.
`arrive`: lines 619-620, `refuse`: line 623, `accept`: lines 627-643, `tlsFail`: line 631, `close`: lines 871-879 and `closed`: line 880. -/
def act (max : Nat) (n : Nat) (t : Th) : Act → Option (Nat × Th)
  | .arrive => if t.pc = .idle then some (n + 1, { t with pc := if n ≥ max then .rejecting else .accepting }) else none
  | .refuse => if t.pc = .rejecting then some (n - 1, { t with pc := .idle }) else none
  | .accept => if t.pc = .accepting then some (n, ⟨.idle, t.conns + 1⟩) else none
  | .tlsFail => if t.pc = .accepting then some (n - 1, { t with pc := .idle }) else none
  | .close => if t.pc = .idle ∧ t.conns > 0 then some (n, ⟨.closing, t.conns - 1⟩) else none
  | .closed => if t.pc = .closing then some (n - 1, { t with pc := .idle }) else none

/-- Thread number `i` takes a step. -/
def step (max : Nat) (s : St) (i : Nat) (a : Act) : Option St :=
  match s.ths[i]? with
  | none => none
  | some t => (act max s.count t a).map fun r => ⟨r.1, s.ths.set i r.2⟩

/-- A sequence of steps, of any threads in any order. -/
def steps (max : Nat) : St → List (Nat × Act) → Option St
  | s, [] => some s
  | s, (i, a) :: l => (step max s i a).bind fun s => steps max s l

/-- `n` threads, nobody connected. -/
def start (n : Nat) : St := ⟨0, List.replicate n ⟨.idle, 0⟩⟩

/-! ### Specification -/

/-- The connections a thread has admitted and not yet given up. -/
def Th.admitted (t : Th) : Nat := t.conns + if t.pc = .accepting ∨ t.pc = .closing then 1 else 0

/-- All admitted connections. -/
def St.admitted (s : St) : Nat := (s.ths.map Th.admitted).sum

/-- The number of refusals in progress. -/
def St.refusing (s : St) : Nat := (s.ths.map fun t => if t.pc = .rejecting then 1 else 0).sum

/-! ### Proofs -/

theorem sum_set {α : Type} (f : α → Nat) (l : List α) (i : Nat) (t t' : α) (h : l[i]? = some t) :
    ((l.set i t').map f).sum + f t = (l.map f).sum + f t' := by
  induction l generalizing i with
  | nil => simp at h
  | cons x l ih =>
    cases i with
    | zero => simp only [List.getElem?_cons_zero, Option.some.injEq] at h; subst h; simp only [List.set_cons_zero, List.map_cons, List.sum_cons]; omega
    | succ i =>
      simp only [List.getElem?_cons_succ] at h
      have := ih i h
      simp only [List.set_cons_succ, List.map_cons, List.sum_cons]
      omega

theorem sum_ge {α : Type} (f : α → Nat) (l : List α) (i : Nat) (t : α) (h : l[i]? = some t) : f t ≤ (l.map f).sum := by
  have := sum_set f l i t t h
  induction l generalizing i with
  | nil => simp at h
  | cons x l ih =>
    cases i with
    | zero => simp only [List.getElem?_cons_zero, Option.some.injEq] at h; subst h; simp
    | succ i =>
      simp only [List.getElem?_cons_succ] at h
      have := ih i h (sum_set f l i t t h)
      simp only [List.map_cons, List.sum_cons]
      omega

structure Inv (max : Nat) (s : St) : Prop where
  count : s.count = s.admitted + s.refusing
  bound : s.admitted ≤ max

theorem step_inv {max : Nat} {s s' : St} {i : Nat} {a : Act} (h : Inv max s) (hs : step max s i a = some s') : Inv max s' := by
  obtain ⟨h1, h2⟩ := h
  unfold step at hs
  cases ht : s.ths[i]? with
  | none => simp [ht] at hs
  | some t =>
    rw [ht] at hs
    simp only [Option.map_eq_some_iff] at hs
    obtain ⟨⟨n, t'⟩, ha, rfl⟩ := hs
    have e1 := sum_set Th.admitted s.ths i t t' ht
    have e2 := sum_set (fun t => if t.pc = .rejecting then 1 else 0) s.ths i t t' ht
    have g1 := sum_ge Th.admitted s.ths i t ht
    have g2 := sum_ge (fun t => if t.pc = .rejecting then 1 else 0) s.ths i t ht
    unfold St.admitted St.refusing at h1
    unfold St.admitted at h2
    cases t with
    | mk pc conns =>
      cases a <;> simp only [act] at ha <;> split at ha <;> simp only [Option.some.injEq, Prod.mk.injEq, reduceCtorEq] at ha
      case some.mk.arrive.isTrue hpc =>
        subst hpc
        obtain ⟨rfl, rfl⟩ := ha
        by_cases hx : s.count ≥ max
        · rw [if_pos hx] at e1 e2 ⊢
          simp only [Th.admitted, reduceCtorEq, or_false, or_true, if_true, if_false] at e1 e2
          exact ⟨by simp only [St.admitted, St.refusing]; omega, by simp only [St.admitted]; omega⟩
        · rw [if_neg hx] at e1 e2 ⊢
          simp only [Th.admitted, reduceCtorEq, or_false, true_or, or_true, if_true, if_false] at e1 e2
          exact ⟨by simp only [St.admitted, St.refusing]; omega, by simp only [St.admitted]; omega⟩
      case some.mk.close.isTrue hpc =>
        obtain ⟨hpc, hc⟩ := hpc
        subst hpc
        obtain ⟨rfl, rfl⟩ := ha
        simp only [Th.admitted, reduceCtorEq, or_false, true_or, or_true, if_true, if_false] at e1 e2
        exact ⟨by simp only [St.admitted, St.refusing]; omega, by simp only [St.admitted]; omega⟩
      all_goals
        rename_i hpc
        subst hpc
        obtain ⟨rfl, rfl⟩ := ha
        simp only [Th.admitted, reduceCtorEq, or_false, true_or, or_true, or_self, if_true, if_false] at e1 e2 g1 g2
        exact ⟨by simp only [St.admitted, St.refusing]; omega, by simp only [St.admitted]; omega⟩

theorem steps_inv {max : Nat} {l : List (Nat × Act)} {s s' : St} (h : Inv max s) (hs : steps max s l = some s') : Inv max s' := by
  induction l generalizing s with
  | nil => simp only [steps, Option.some.injEq] at hs; exact hs ▸ h
  | cons x l ih =>
    simp only [steps, Option.bind_eq_some_iff] at hs
    obtain ⟨s1, h1, h2⟩ := hs
    exact ih (step_inv h h1) h2

theorem start_inv (max n : Nat) : Inv max (start n) := by
  have h1 : (start n).admitted = 0 := by
    simp [St.admitted, start, Th.admitted]
  have h2 : (start n).refusing = 0 := by
    simp [St.refusing, start]
  exact ⟨by rw [h1, h2]; rfl, by rw [h1]; exact Nat.zero_le _⟩

/-- **C50.**  With any number of threads and in any order of their steps, never are more than `max` connections admitted. -/
theorem never_more_than_max (max n : Nat) (l : List (Nat × Act)) {s : St} (h : steps max (start n) l = some s) : s.admitted ≤ max :=
  (steps_inv (start_inv max n) h).bound

/-- Not vacuous: with a limit of 2, two threads admit one connection each and a third one is refused. -/
example : ∃ s, steps 2 (start 2) [(0, .arrive), (1, .arrive), (0, .accept), (1, .accept), (0, .arrive)] = some s ∧ s.admitted = 2 ∧ s.refusing = 1 :=
  ⟨_, rfl, by decide, by decide⟩

/-- **C62** (`_partial`: only while no other refusal is in progress).  A connection is refused only if the limit is reached. -/
theorem refused_only_at_limit_partial (max n : Nat) (l : List (Nat × Act)) {s s' : St} (h : steps max (start n) l = some s)
    (i : Nat) (hs : step max s i .arrive = some s') (hr : s'.refusing = s.refusing + 1) (hno : s.refusing = 0) : s.admitted = max := by
  obtain ⟨h1, h2⟩ := steps_inv (start_inv max n) h
  unfold step at hs
  cases ht : s.ths[i]? with
  | none => simp [ht] at hs
  | some t =>
    rw [ht] at hs
    simp only [act] at hs
    split at hs
    · rename_i hpc
      simp only [Option.map_some, Option.some.injEq] at hs
      by_cases hx : s.count ≥ max
      · omega
      · exfalso
        rw [if_neg hx] at hs
        subst hs
        have e2 := sum_set (fun t => if t.pc = .rejecting then 1 else 0) s.ths i t { t with pc := .accepting } ht
        simp only [hpc, reduceCtorEq, if_false] at e2
        unfold St.refusing at hr
        simp only at hr
        omega
    · simp at hs

/-- Hypotheses of `refused_only_at_limit_partial`. -/
example : ∃ s s', steps 1 (start 2) [(0, .arrive), (0, .accept)] = some s ∧ step 1 s 1 .arrive = some s' ∧ s'.refusing = s.refusing + 1 ∧ s.refusing = 0 :=
  ⟨_, _, rfl, rfl, by decide, by decide⟩

/-- **C62, negation.**  With a limit of 1, while one thread is refusing a connection another connection is refused too although nobody is
connected any more. -/
theorem refused_below_limit : ∃ l s s', steps 1 (start 3) l = some s ∧ s.admitted = 0 ∧ step 1 s 2 .arrive = some s' ∧ s'.refusing = s.refusing + 1 :=
  ⟨[(0, .arrive), (0, .accept), (1, .arrive), (0, .close), (0, .closed)], _, _, rfl, by decide, rfl, by decide⟩

end Verif.Net.Admit
