import Mathlib.Tactic.Common
import Mathlib.Logic.Function.Basic
import Mathlib.Algebra.Order.Group.Nat

/-!
C83: the counters that STATS adds up over threads: `cmd_get`, `cmd_set`, `get_hits` and `get_misses` (numbered 0 to 3 here).  A command counts in its connection, the
connection is added to its thread when the packet has been processed, and the thread adds its sums to the ones that STATS shows at the top of its loop.
-/

namespace Verif.Net.Count

open Function

/-- Where a thread is in `qthread`, `/repo/src/net.c:916-937`: before the i-th addition of `sumstats_global`, before `getevents`, in `qprocess`, in the call of `data` for a
connection, in `qwrite` and `qclose`. -/
inductive Pc where
  | pub (i : Nat)
  | ready
  | process
  | packet (c : Nat)
  | write
deriving DecidableEq, Repr

/-- `struct qthreadctx`, `/repo/src/net.c:468-514`: the packets not yet processed (`qins`) and the sums. -/
structure Thread where
  pc : Pc
  left : List Nat
  sum : Nat → Nat

/-- All threads, the counters of the connections (`struct net_conn`, `/repo/src/net.c:259-262`) and the global ones (516-519). -/
structure S where
  th : Nat → Thread
  conn : Nat → Nat → Nat
  glob : Nat → Nat

/-- What happens, in the order in which it happens. -/
inductive Ev where
  /-- The i-th addition of `sumstats_global`, `/repo/src/net.c:534-547`. -/
  | publish (t i : Nat)
  /-- `getevents` fails, `/repo/src/net.c:919-925`. -/
  | retry (t : Nat)
  /-- From `getevents` to `qread`, `/repo/src/net.c:918-930`: the connections with packets. -/
  | wait (t : Nat) (cs : List Nat)
  /-- The call of `data`, `/repo/src/net.c:792`. -/
  | packet (c : Nat)
  /-- `net_stat_cmd_get_incr` etc., `/repo/src/net.c:1304-1318`. -/
  | count (c i : Nat)
  /-- `stat_cmd_get` etc. read for STATS, `/repo/src/net.c:549-564` and `/repo/src/cmds.c:2074-2079`. -/
  | shown (c i v : Nat)
  /-- `sumstats`, `/repo/src/net.c:793` and 522-531. -/
  | done (c : Nat)
  /-- The end of `qprocess`. -/
  | processed (t : Nat)
  /-- The replies of a connection are sent in `qwrite`, `/repo/src/net.c:857-863`. -/
  | answered (c : Nat)
  /-- Back to the top of the loop, `/repo/src/net.c:936`. -/
  | again (t : Nat)
deriving DecidableEq, Repr

variable (owner : Nat → Nat)

/-- A thread changes. -/
def S.upd (s : S) (t : Nat) (x : Thread) : S := { s with th := update s.th t x }

/-- After the i-th addition. -/
def nextPub (i : Nat) : Pc := if i = 3 then .ready else .pub (i + 1)

/-- One step.  `owner c` is `conn->ctx`, set once in `conn_new`, `/repo/src/net.c:265-271`.  A connection has one packet in a round, as its socket has one event
(`Verif.Net.LoopInv`).  The counters of a connection are 32 bits wide, the others 64.  The additions of `sumstats` are one step: no other thread looks at these variables. -/
def step (s : S) : Ev → Option S
  | .publish t i =>
    if (s.th t).pc = .pub i ∧ i < 4 then
      some { s.upd t ⟨nextPub i, (s.th t).left, update (s.th t).sum i 0⟩ with
        glob := update s.glob i ((s.glob i + (s.th t).sum i) % 2 ^ 64) }
    else none
  | .retry t => if (s.th t).pc = .ready then some (s.upd t { s.th t with pc := .pub 0 }) else none
  | .wait t cs => if (s.th t).pc = .ready ∧ cs.Nodup ∧ ∀ c ∈ cs, owner c = t then some (s.upd t ⟨.process, cs, (s.th t).sum⟩) else none
  | .packet c =>
    match (s.th (owner c)).left with
    | c' :: l => if (s.th (owner c)).pc = .process ∧ c' = c then some (s.upd (owner c) ⟨.packet c, l, (s.th (owner c)).sum⟩) else none
    | [] => none
  | .count c i =>
    if (s.th (owner c)).pc = .packet c ∧ i < 4 then some { s with conn := update s.conn c (update (s.conn c) i ((s.conn c i + 1) % 2 ^ 32)) } else none
  | .shown c i v => if (s.th (owner c)).pc = .packet c ∧ i < 4 ∧ v = s.glob i then some s else none
  | .done c =>
    if (s.th (owner c)).pc = .packet c then
      some { s.upd (owner c) ⟨.process, (s.th (owner c)).left, fun i => ((s.th (owner c)).sum i + s.conn c i) % 2 ^ 64⟩ with conn := update s.conn c fun _ => 0 }
    else none
  | .processed t => if (s.th t).pc = .process ∧ (s.th t).left = [] then some (s.upd t { s.th t with pc := .write }) else none
  | .answered c => if (s.th (owner c)).pc = .write then some s else none
  | .again t => if (s.th t).pc = .write then some (s.upd t { s.th t with pc := .pub 0 }) else none

/-- All counters are zero. -/
def init : S := ⟨fun _ => ⟨.pub 0, [], fun _ => 0⟩, fun _ _ => 0, fun _ => 0⟩

/-- What happened so far, and where it led. -/
inductive Run : List Ev → S → Prop
  | init : Run [] init
  | step {tr : List Ev} {s s' : S} {e : Ev} : Run tr s → step owner s e = some s' → Run (tr ++ [e]) s'

/-! ## What is meant -/

/-- How often something was counted. -/
def total (i : Nat) (tr : List Ev) : Nat := tr.countP fun e => match e with | .count _ j => j = i | _ => false

/-- How often on one connection. -/
def totalOf (c i : Nat) (tr : List Ev) : Nat := tr.count (.count c i)

/-- What was counted and then added by the thread at the top of its loop. -/
def settled (i : Nat) : List Ev → Nat
  | [] => 0
  | .count c j :: l => (if j = i ∧ .publish (owner c) i ∈ l then 1 else 0) + settled i l
  | _ :: l => settled i l

/-- What was counted and then answered. -/
def answered (i : Nat) : List Ev → Nat
  | [] => 0
  | .count c j :: l => (if j = i ∧ .answered c ∈ l then 1 else 0) + answered i l
  | _ :: l => answered i l

/-- Counted in the packet of a connection being processed. -/
def since (c i : Nat) : List Ev → Nat
  | [] => 0
  | e :: l => (if e = .count c i ∧ .packet c ∉ l then 1 else 0) + since c i l

/-- A packet has fewer than 2^32 commands and keys. -/
def Small (tr : List Ev) : Prop := ∀ p, p <+: tr → ∀ c i, since c i p < 2 ^ 32

/-- **C83**, the claim: STATS shows all that has been answered to anyone, and all that the same client sent before. -/
def ShowsAll : Prop :=
  ∀ tr s p q c i v, Run owner tr s → tr = p ++ .shown c i v :: q → answered i p ≤ v ∧ totalOf c i p ≤ v

/-! ## What has been counted by a thread since its last addition -/

/-- Counted by a thread, not yet added. -/
def pending (t i : Nat) : List Ev → Nat
  | [] => 0
  | .count c j :: l => (if j = i ∧ owner c = t ∧ .publish t i ∉ l then 1 else 0) + pending t i l
  | _ :: l => pending t i l

variable {owner}

theorem settled_snoc (i : Nat) (tr : List Ev) (e : Ev) :
    settled owner i (tr ++ [e]) = settled owner i tr + match e with | .publish t j => if j = i then pending owner t i tr else 0 | _ => 0 := by
  induction tr with
  | nil => cases e <;> simp [settled, pending]
  | cons a l ih =>
    cases a <;> simp only [List.cons_append, settled, pending, ih]
    rename_i c j
    cases e <;> simp only [List.mem_append, List.mem_singleton, reduceCtorEq, or_false, Nat.add_zero, Nat.add_assoc]
    rename_i t k
    by_cases hk : k = i
    · subst hk
      simp only [Ev.publish.injEq, and_true, if_true]
      by_cases hj : j = k <;> by_cases hm : Ev.publish (owner c) k ∈ l <;> by_cases ho : owner c = t <;> simp_all <;> omega
    · simp [hk, Ne.symm hk]

theorem pending_snoc (t i : Nat) (tr : List Ev) (e : Ev) :
    pending owner t i (tr ++ [e]) = match e with
      | .publish t' j => if t' = t ∧ j = i then 0 else pending owner t i tr
      | .count c j => pending owner t i tr + if j = i ∧ owner c = t then 1 else 0
      | _ => pending owner t i tr := by
  induction tr with
  | nil => cases e <;> simp [pending]
  | cons a l ih =>
    cases a <;> simp only [List.cons_append, pending, ih] <;> cases e <;> simp only [List.mem_append, List.mem_singleton, reduceCtorEq, or_false]
    · rename_i c j t' k
      by_cases h : t' = t ∧ k = i
      · obtain ⟨rfl, rfl⟩ := h; simp
      · rw [if_neg h, if_neg h]
        have : ¬ (Ev.publish t i = Ev.publish t' k) := by rintro ⟨⟩; exact h ⟨rfl, rfl⟩
        simp [this]
    · omega

theorem since_snoc (c i : Nat) (tr : List Ev) (e : Ev) :
    since c i (tr ++ [e]) = if e = .packet c then 0 else since c i tr + if e = .count c i then 1 else 0 := by
  induction tr with
  | nil => by_cases h : e = .packet c <;> simp [since, h]
  | cons a l ih =>
    simp only [List.cons_append, since, ih, List.mem_append, List.mem_singleton]
    by_cases h : e = .packet c
    · simp [h]
    · rw [if_neg h, if_neg h]
      have : ¬ (Ev.packet c = e) := fun h' => h h'.symm
      simp only [this, or_false]
      omega

theorem total_snoc (i : Nat) (tr : List Ev) (e : Ev) : total i (tr ++ [e]) = total i tr + match e with | .count _ j => if j = i then 1 else 0 | _ => 0 := by
  unfold total
  rw [List.countP_append]
  cases e <;> simp

theorem settled_le (i : Nat) (tr : List Ev) : settled owner i tr ≤ total i tr := by
  induction tr with
  | nil => simp [settled]
  | cons a l ih =>
    unfold total at ih ⊢
    rw [List.countP_cons]
    cases a <;> simp only [settled] <;> try omega
    rename_i c j
    by_cases hj : j = i <;> by_cases hm : Ev.publish (owner c) i ∈ l <;> simp [hj, hm] <;> omega

theorem pending_le (t i : Nat) (tr : List Ev) : settled owner i tr + pending owner t i tr ≤ total i tr := by
  induction tr with
  | nil => simp [settled, pending]
  | cons a l ih =>
    unfold total at ih ⊢
    rw [List.countP_cons]
    cases a <;> simp only [settled, pending] <;> try omega
    rename_i c j
    by_cases hj : j = i <;> by_cases hm : Ev.publish (owner c) i ∈ l <;> by_cases ho : owner c = t <;> simp_all <;> omega

/-! ## The invariant -/

/-- Counted on a connection, and not yet added by its thread. -/
def Fresh (c i : Nat) (tr : List Ev) : Prop := ∃ p q, tr = p ++ .count c i :: q ∧ .publish (owner c) i ∉ q

theorem fresh_snoc (c i : Nat) (tr : List Ev) (e : Ev) :
    Fresh (owner := owner) c i (tr ++ [e]) → e = .count c i ∨ (Fresh (owner := owner) c i tr ∧ e ≠ .publish (owner c) i) := by
  rintro ⟨p, q, h, hn⟩
  rcases List.eq_nil_or_concat q with rfl | ⟨q', b, rfl⟩
  · have := List.append_inj' h rfl
    left; simpa using this.2
  · have h' : tr ++ [e] = (p ++ .count c i :: q') ++ [b] := by simpa using h
    obtain ⟨h1, h2⟩ := List.append_inj' h' rfl
    cases h2
    right
    refine ⟨⟨p, q', h1, fun hm => hn (by simp [hm])⟩, fun he => hn (by simp [he])⟩

/-- The counters of the connection whose packet the thread processes. -/
def busy (s : S) (t : Nat) (i : Nat) : Nat := match (s.th t).pc with | .packet c => s.conn c i | _ => 0

/-- Where a thread can be with something to add. -/
def Open (x : Thread) (c i : Nat) : Prop :=
  match x.pc with
  | .pub j => j ≤ i
  | .ready => False
  | _ => c ∉ x.left

/-- What holds always. -/
structure Inv (tr : List Ev) (s : S) : Prop where
  glob : ∀ i, i < 4 → s.glob i = settled owner i tr
  sum : ∀ t i, i < 4 → (s.th t).sum i + busy s t i = pending owner t i tr
  mine : ∀ t c, (s.th t).pc = .packet c → owner c = t ∧ c ∉ (s.th t).left
  zero : ∀ c i, i < 4 → (s.th (owner c)).pc ≠ .packet c → s.conn c i = 0
  since : ∀ c i, i < 4 → (s.th (owner c)).pc = .packet c → s.conn c i = since c i tr
  left : ∀ t, (s.th t).left.Nodup
  fresh : ∀ c i, i < 4 → Fresh (owner := owner) c i tr → Open (s.th (owner c)) c i

theorem inv_init : Inv (owner := owner) [] init := by
  refine ⟨fun _ _ => rfl, fun _ _ _ => rfl, fun _ _ h => by simp [init] at h, fun _ _ _ _ => rfl, fun _ _ _ h => by simp [init] at h, fun _ => List.nodup_nil, ?_⟩
  rintro c i _ ⟨p, q, h, _⟩
  simp at h

/-- Nothing is counted or added, and no packet begins. -/
structure Neutral (e : Ev) : Prop where
  publish : ∀ t i, e ≠ .publish t i
  count : ∀ c i, e ≠ .count c i
  packet : ∀ c, e ≠ .packet c

theorem Neutral.settled {e : Ev} (h : Neutral e) (i : Nat) (tr : List Ev) : settled owner i (tr ++ [e]) = Count.settled owner i tr := by
  rw [settled_snoc]
  cases e <;> first | rfl | exact absurd rfl (h.publish _ _)

theorem Neutral.pending {e : Ev} (h : Neutral e) (t i : Nat) (tr : List Ev) : pending owner t i (tr ++ [e]) = Count.pending owner t i tr := by
  rw [pending_snoc]
  cases e <;> first | rfl | exact absurd rfl (h.publish _ _) | exact absurd rfl (h.count _ _)

theorem Neutral.since {e : Ev} (h : Neutral e) (c i : Nat) (tr : List Ev) : since c i (tr ++ [e]) = Count.since c i tr := by
  rw [since_snoc, if_neg (h.packet c), if_neg (h.count c i), Nat.add_zero]

theorem Neutral.fresh {e : Ev} (h : Neutral e) {c i : Nat} {tr : List Ev} (hf : Fresh (owner := owner) c i (tr ++ [e])) : Fresh (owner := owner) c i tr := by
  rcases fresh_snoc _ _ _ _ hf with h' | h'
  · exact absurd h' (h.count c i)
  · exact h'.1

theorem inv_same {tr : List Ev} {s : S} {e : Ev} (h : Inv (owner := owner) tr s) (hn : Neutral e) : Inv (owner := owner) (tr ++ [e]) s := by
  refine ⟨?_, ?_, h.mine, h.zero, ?_, h.left, fun c i hi hf => h.fresh c i hi (hn.fresh hf)⟩
  · intro i hi; rw [hn.settled]; exact h.glob i hi
  · intro t i hi; rw [hn.pending]; exact h.sum t i hi
  · intro c i hi hp; rw [hn.since]; exact h.since c i hi hp

theorem inv_move {tr : List Ev} {s : S} {e : Ev} {t : Nat} {x : Thread} (h : Inv (owner := owner) tr s) (hn : Neutral e) (h1 : ∀ c, (s.th t).pc ≠ .packet c)
    (h2 : ∀ c, x.pc ≠ .packet c) (h3 : x.sum = (s.th t).sum) (h4 : x.left.Nodup)
    (h5 : ∀ c i, i < 4 → owner c = t → Open (s.th t) c i → Open x c i) : Inv (owner := owner) (tr ++ [e]) (s.upd t x) := by
  refine ⟨?_, ?_, ?_, ?_, ?_, ?_, ?_⟩
  · intro i hi; rw [hn.settled]; exact h.glob i hi
  · intro t' i hi
    rw [hn.pending]
    have := h.sum t' i hi
    by_cases htt : t' = t
    · subst htt
      have hb : busy s t' i = 0 := by
        unfold busy; split
        · rename_i c hc; exact absurd hc (h1 c)
        · rfl
      have hb' : busy (s.upd t' x) t' i = 0 := by
        unfold busy; split
        · rename_i c hc; simp only [S.upd, update_self] at hc; exact absurd hc (h2 c)
        · rfl
      rw [hb']
      simp only [S.upd, update_self, h3]
      omega
    · simpa [S.upd, busy, htt] using this
  · intro t' c hp
    by_cases htt : t' = t
    · subst htt; simp only [S.upd, update_self] at hp; exact absurd hp (h2 c)
    · simp only [S.upd, ne_eq, htt, not_false_eq_true, update_of_ne] at hp ⊢; exact h.mine t' c hp
  · intro c i hi hp
    by_cases htt : owner c = t
    · exact h.zero c i hi (by rw [htt]; exact h1 c)
    · simp only [S.upd, ne_eq, htt, not_false_eq_true, update_of_ne] at hp; exact h.zero c i hi hp
  · intro c i hi hp
    by_cases htt : owner c = t
    · simp only [S.upd, htt, update_self] at hp; exact absurd hp (h2 c)
    · simp only [S.upd, ne_eq, htt, not_false_eq_true, update_of_ne] at hp
      rw [hn.since]; exact h.since c i hi hp
  · intro t'
    by_cases htt : t' = t
    · subst htt; simpa [S.upd] using h4
    · simpa [S.upd, htt] using h.left t'
  · intro c i hi hf
    have := h.fresh c i hi (hn.fresh hf)
    by_cases htt : owner c = t
    · simp only [S.upd, htt, update_self]
      rw [htt] at this
      exact h5 c i hi htt this
    · simpa [S.upd, htt] using this

theorem inv_step {tr : List Ev} {s s' : S} {e : Ev} (h : Inv (owner := owner) tr s) (hs : step owner s e = some s')
    (hsm : ∀ c i, since c i (tr ++ [e]) < 2 ^ 32) (ht : ∀ i, total i (tr ++ [e]) < 2 ^ 64) : Inv (owner := owner) (tr ++ [e]) s' := by
  have htp : ∀ t i, settled owner i tr + pending owner t i tr < 2 ^ 64 := fun t i => by
    have h1 := pending_le (owner := owner) t i tr
    have h2 := ht i
    rw [total_snoc] at h2
    omega
  cases e with
  | publish t i =>
    simp only [step] at hs
    split_ifs at hs with hc
    cases hs
    obtain ⟨hpc, hi⟩ := hc
    have hnp : ∀ c, nextPub i ≠ .packet c := by intro c; unfold nextPub; split <;> simp
    have hb : busy s t i = 0 := by simp [busy, hpc]
    refine ⟨?_, ?_, ?_, ?_, ?_, ?_, ?_⟩
    · intro j hj
      rw [settled_snoc]
      by_cases hji : j = i
      · subst hji
        have := h.sum t j hj
        have := htp t j
        have := h.glob j hj
        simp only [update_self, if_true]
        rw [Nat.mod_eq_of_lt (by omega)]
        omega
      · simp only [ne_eq, hji, not_false_eq_true, update_of_ne, Ne.symm hji, if_false, Nat.add_zero]
        exact h.glob j hj
    · intro t' j hj
      rw [pending_snoc]
      by_cases htt : t' = t
      · subst htt
        by_cases hji : j = i
        · subst hji
          simp only [S.upd, busy, update_self, and_self, if_true, Nat.zero_add]
        · have := h.sum t' j hj
          simp only [busy, hpc, Nat.add_zero] at this
          simp only [S.upd, update_self, busy, ne_eq, hji, not_false_eq_true, update_of_ne, Ne.symm hji, and_false, if_false]
          cases hq : nextPub i <;> first | exact this | exact absurd hq (hnp _)
      · have := h.sum t' j hj
        simpa [S.upd, busy, htt, Ne.symm htt] using this
    · intro t' c hp
      by_cases htt : t' = t
      · subst htt; simp only [S.upd, update_self] at hp; exact absurd hp (hnp c)
      · simp only [S.upd, ne_eq, htt, not_false_eq_true, update_of_ne] at hp ⊢; exact h.mine t' c hp
    · intro c j hj hp
      by_cases htt : owner c = t
      · exact h.zero c j hj (by rw [htt, hpc]; simp)
      · simp only [S.upd, ne_eq, htt, not_false_eq_true, update_of_ne] at hp; exact h.zero c j hj hp
    · intro c j hj hp
      by_cases htt : owner c = t
      · simp only [S.upd, htt, update_self] at hp; exact absurd hp (hnp c)
      · simp only [S.upd, ne_eq, htt, not_false_eq_true, update_of_ne] at hp
        rw [since_snoc]; simpa [S.upd] using h.since c j hj hp
    · intro t'
      by_cases htt : t' = t
      · subst htt; simpa [S.upd] using h.left t'
      · simpa [S.upd, htt] using h.left t'
    · intro c j hj hf
      rcases fresh_snoc _ _ _ _ hf with h' | ⟨h', hne⟩
      · cases h'
      · have := h.fresh c j hj h'
        by_cases htt : owner c = t
        · simp only [S.upd, htt, update_self]
          have hij : i ≠ j := fun hij => hne (by rw [htt, hij])
          rw [htt] at this
          simp only [Open, hpc] at this ⊢
          unfold nextPub
          by_cases h3 : i = 3
          · omega
          · rw [if_neg h3]; simp only; omega
        · simpa [S.upd, htt] using this
  | retry t =>
    simp only [step] at hs
    split_ifs at hs with hc
    cases hs
    exact inv_move h (x := ⟨.pub 0, _, _⟩) ⟨by simp, by simp, by simp⟩ (by simp [hc]) (by simp) rfl (h.left t) fun c i _ _ _ => Nat.zero_le i
  | wait t cs =>
    simp only [step] at hs
    split_ifs at hs with hc
    cases hs
    refine inv_move h (x := ⟨.process, _, _⟩) ⟨by simp, by simp, by simp⟩ (by simp [hc.1]) (by simp) rfl hc.2.1 fun c i _ _ hf => ?_
    rw [Open, hc.1] at hf
    exact hf.elim
  | packet c =>
    simp only [step] at hs
    split at hs
    · rename_i c' l hl
      split_ifs at hs with hc
      cases hs
      obtain ⟨hpc, rfl⟩ := hc
      have hnd := h.left (owner c')
      rw [hl] at hnd
      have hz : ∀ i, i < 4 → s.conn c' i = 0 := fun i hi => h.zero c' i hi (by rw [hpc]; simp)
      refine ⟨?_, ?_, ?_, ?_, ?_, ?_, ?_⟩
      · intro i hi; rw [settled_snoc]; exact h.glob i hi
      · intro t i hi
        rw [pending_snoc]
        have := h.sum t i hi
        by_cases htt : t = owner c'
        · subst htt
          simp only [busy, hpc] at this
          simpa [S.upd, busy, hz i hi] using this
        · simpa [S.upd, busy, htt] using this
      · intro t c hp
        by_cases htt : t = owner c'
        · subst htt
          simp only [S.upd, update_self, Pc.packet.injEq] at hp ⊢
          subst hp
          exact ⟨rfl, (List.nodup_cons.1 hnd).1⟩
        · simp only [S.upd, ne_eq, htt, not_false_eq_true, update_of_ne] at hp ⊢; exact h.mine t c hp
      · intro c i hi hp
        by_cases htt : owner c = owner c'
        · exact h.zero c i hi (by rw [htt, hpc]; simp)
        · simp only [S.upd, ne_eq, htt, not_false_eq_true, update_of_ne] at hp; exact h.zero c i hi hp
      · intro c i hi hp
        rw [since_snoc]
        by_cases hcc : c = c'
        · subst hcc; simpa [S.upd] using hz i hi
        · by_cases htt : owner c = owner c'
          · simp only [S.upd, htt, update_self, Pc.packet.injEq] at hp; exact absurd hp.symm hcc
          · simp only [S.upd, ne_eq, htt, not_false_eq_true, update_of_ne] at hp
            simpa [S.upd, Ne.symm hcc] using h.since c i hi hp
      · intro t
        by_cases htt : t = owner c'
        · subst htt; simpa [S.upd] using (List.nodup_cons.1 hnd).2
        · simpa [S.upd, htt] using h.left t
      · intro c i hi hf
        rcases fresh_snoc _ _ _ _ hf with h' | ⟨h', _⟩
        · cases h'
        · have := h.fresh c i hi h'
          by_cases htt : owner c = owner c'
          · simp only [S.upd, htt, update_self]
            rw [htt] at this
            simp only [Open, hpc, hl] at this ⊢
            exact fun hm => this (List.mem_cons_of_mem _ hm)
          · simpa [S.upd, htt] using this
    · cases hs
  | count c i =>
    simp only [step] at hs
    split_ifs at hs with hc
    cases hs
    obtain ⟨hpc, hi⟩ := hc
    have hw : (s.conn c i + 1) % 2 ^ 32 = s.conn c i + 1 := by
      have h1 := h.since c i hi hpc
      have h2 := hsm c i
      rw [since_snoc] at h2
      simp at h2
      exact Nat.mod_eq_of_lt (by omega)
    rw [hw]
    refine ⟨?_, ?_, h.mine, ?_, ?_, h.left, ?_⟩
    · intro j hj; rw [settled_snoc]; exact h.glob j hj
    · intro t j hj
      rw [pending_snoc]
      have := h.sum t j hj
      by_cases htt : t = owner c
      · subst htt
        simp only [busy, hpc] at this ⊢
        by_cases hji : j = i
        · subst hji; simp; omega
        · simp [hji, Ne.symm hji]; omega
      · have hb : busy { s with conn := update s.conn c (update (s.conn c) i (s.conn c i + 1)) } t j = busy s t j := by
          simp only [busy]
          split
          · rename_i c' hc'
            have : c' ≠ c := by rintro rfl; exact htt (h.mine t c' hc').1.symm
            simp [this]
          · rfl
        rw [hb]
        simpa [Ne.symm htt] using this
    · intro c' j hj hp
      by_cases hcc : c' = c
      · subst hcc; exact absurd hpc hp
      · simpa [hcc] using h.zero c' j hj hp
    · intro c' j hj hp
      rw [since_snoc]
      by_cases hcc : c' = c
      · subst hcc
        have := h.since c' j hj hpc
        by_cases hji : j = i
        · subst hji; simp; omega
        · simp [hji, Ne.symm hji]; omega
      · simpa [hcc, Ne.symm hcc] using h.since c' j hj hp
    · intro c' j hj hf
      rcases fresh_snoc _ _ _ _ hf with h' | ⟨h', _⟩
      · cases h'
        simp only [Open, hpc]
        exact (h.mine _ c hpc).2
      · exact h.fresh c' j hj h'
  | shown c i v =>
    simp only [step] at hs
    split_ifs at hs with hc
    cases hs
    exact inv_same h ⟨by simp, by simp, by simp⟩
  | answered c =>
    simp only [step] at hs
    split_ifs at hs with hc
    cases hs
    exact inv_same h ⟨by simp, by simp, by simp⟩
  | done c =>
    simp only [step] at hs
    split_ifs at hs with hc
    cases hs
    have hn : Neutral (.done c) := ⟨by simp, by simp, by simp⟩
    refine ⟨?_, ?_, ?_, ?_, ?_, ?_, ?_⟩
    · intro i hi; rw [hn.settled]; exact h.glob i hi
    · intro t i hi
      rw [hn.pending]
      have := h.sum t i hi
      by_cases htt : t = owner c
      · subst htt
        have h3 := htp (owner c) i
        simp only [busy, hc] at this
        simp only [S.upd, busy, update_self]
        rw [Nat.mod_eq_of_lt (by omega)]
        omega
      · have hb : busy ({ s.upd (owner c) ⟨.process, (s.th (owner c)).left, fun i => ((s.th (owner c)).sum i + s.conn c i) % 2 ^ 64⟩ with conn := update s.conn c fun _ => 0 }) t i =
            busy s t i := by
          simp only [busy, S.upd, ne_eq, htt, not_false_eq_true, update_of_ne]
          split
          · rename_i c' hc'
            have : c' ≠ c := by rintro rfl; exact htt (h.mine t c' hc').1.symm
            simp [this]
          · rfl
        rw [hb]
        simpa [S.upd, htt] using this
    · intro t c' hp
      by_cases htt : t = owner c
      · subst htt; simp [S.upd] at hp
      · simp only [S.upd, ne_eq, htt, not_false_eq_true, update_of_ne] at hp ⊢; exact h.mine t c' hp
    · intro c' i hi hp
      by_cases hcc : c' = c
      · subst hcc; simp
      · simp only [ne_eq, hcc, not_false_eq_true, update_of_ne]
        refine h.zero c' i hi ?_
        by_cases htt : owner c' = owner c
        · rw [htt, hc]; simpa using Ne.symm hcc
        · simpa [S.upd, htt] using hp
    · intro c' i hi hp
      by_cases htt : owner c' = owner c
      · simp [S.upd, htt] at hp
      · have hcc : c' ≠ c := by rintro rfl; exact htt rfl
        simp only [S.upd, ne_eq, htt, not_false_eq_true, update_of_ne] at hp
        rw [hn.since]
        simpa [hcc] using h.since c' i hi hp
    · intro t
      by_cases htt : t = owner c
      · subst htt; simpa [S.upd] using h.left (owner c)
      · simpa [S.upd, htt] using h.left t
    · intro c' i hi hf
      have := h.fresh c' i hi (hn.fresh hf)
      by_cases htt : owner c' = owner c
      · simp only [S.upd, htt, update_self]
        rw [htt] at this
        simpa only [Open, hc] using this
      · simpa [S.upd, htt] using this
  | processed t =>
    simp only [step] at hs
    split_ifs at hs with hc
    cases hs
    refine inv_move h (x := ⟨.write, _, _⟩) ⟨by simp, by simp, by simp⟩ (by simp [hc.1]) (by simp) rfl (h.left t) fun c i _ _ hf => ?_
    simpa only [Open, hc.1] using hf
  | again t =>
    simp only [step] at hs
    split_ifs at hs with hc
    cases hs
    exact inv_move h (x := ⟨.pub 0, _, _⟩) ⟨by simp, by simp, by simp⟩ (by simp [hc]) (by simp) rfl (h.left t) fun c i _ _ _ => Nat.zero_le i

/-! ## What is shown -/

theorem run_prefix {tr : List Ev} {s : S} (h : Run owner tr s) : ∀ {p q : List Ev} {e : Ev}, tr = p ++ e :: q → ∃ s1 s2, Run owner p s1 ∧ step owner s1 e = some s2 := by
  induction h with
  | init => intro p q e he; simp at he
  | @step tr s s' e' hr hs ih =>
    intro p q e he
    rcases List.eq_nil_or_concat q with rfl | ⟨q', b, rfl⟩
    · obtain ⟨h1, h2⟩ := List.append_inj' he rfl
      cases h2; subst h1
      exact ⟨s, s', hr, hs⟩
    · have h' : tr ++ [e'] = (p ++ e :: q') ++ [b] := by simpa using he
      exact ih (List.append_inj' h' rfl).1

theorem run_inv {tr : List Ev} {s : S} (h : Run owner tr s) (hsm : Small tr) (ht : ∀ i, total i tr < 2 ^ 64) : Inv (owner := owner) tr s := by
  induction h with
  | init => exact inv_init
  | @step tr s s' e hr hs ih =>
    refine inv_step (ih (fun p hp => hsm p (hp.trans (List.prefix_append _ _))) fun i => ?_) hs (hsm _ (List.prefix_refl _)) ht
    have := ht i
    rw [total_snoc] at this
    omega

theorem total_append (i : Nat) (a b : List Ev) : total i (a ++ b) = total i a + total i b := List.countP_append

theorem settled_mono (i : Nat) (a b : List Ev) : settled owner i a ≤ settled owner i (a ++ b) := by
  induction a with
  | nil => simp [settled]
  | cons x l ih =>
    cases x <;> simp only [List.cons_append, settled] <;> try exact ih
    rename_i c j
    by_cases hj : j = i ∧ Ev.publish (owner c) i ∈ l
    · have : j = i ∧ Ev.publish (owner c) i ∈ l ++ b := ⟨hj.1, List.mem_append_left _ hj.2⟩
      rw [if_pos hj, if_pos this]; omega
    · rw [if_neg hj]; omega

/-- **C83.**  STATS shows exactly what was counted by threads that began another round since. -/
theorem shown_exact {tr p q : List Ev} {s : S} {c i v : Nat} (h : Run owner tr s) (he : tr = p ++ .shown c i v :: q) (hsm : Small tr)
    (ht : ∀ i, total i tr < 2 ^ 64) : v = settled owner i p := by
  obtain ⟨s1, s2, h1, h2⟩ := run_prefix h he
  have hi := run_inv h1 (fun x hx => hsm x (hx.trans (by rw [he]; exact List.prefix_append _ _))) fun i => by
    have := ht i
    rw [he, total_append] at this
    omega
  simp only [step] at h2
  split_ifs at h2 with hc
  rw [hc.2.2]
  exact hi.glob i hc.2.1

/-- **C83.**  STATS never shows more than what happened. -/
theorem shown_at_most {tr p q : List Ev} {s : S} {c i v : Nat} (h : Run owner tr s) (he : tr = p ++ .shown c i v :: q) (hsm : Small tr)
    (ht : ∀ i, total i tr < 2 ^ 64) : v ≤ total i p := by
  rw [shown_exact h he hsm ht]
  exact settled_le i p

theorem not_fresh_le {c i : Nat} {p : List Ev} (h : ¬ Fresh (owner := owner) c i p) : totalOf c i p ≤ settled owner i p := by
  induction p with
  | nil => simp [totalOf, settled]
  | cons a l ih =>
    have hl : ¬ Fresh (owner := owner) c i l := by
      rintro ⟨x, y, h1, h2⟩
      exact h ⟨a :: x, y, by rw [h1]; rfl, h2⟩
    have := ih hl
    unfold totalOf at this ⊢
    rw [List.count_cons]
    by_cases ha : a = .count c i
    · subst ha
      have hm : Ev.publish (owner c) i ∈ l := by
        by_contra hm
        exact h ⟨[], l, rfl, hm⟩
      simp only [settled, hm, and_self, if_true, beq_self_eq_true]
      omega
    · have : settled owner i l ≤ settled owner i (a :: l) := by cases a <;> simp only [settled] <;> omega
      simp [ha]
      omega

/-- **C83**, partial: STATS shows everything that the client's earlier packets brought about.  Missing: the same packet, and other connections (`stats_do_not_show_all`,
`pipelined_get_not_shown`). -/
theorem shown_own_partial {tr p1 p2 q : List Ev} {s : S} {c i v : Nat} (h : Run owner tr s) (he : tr = p1 ++ .packet c :: p2 ++ .shown c i v :: q) (hsm : Small tr)
    (ht : ∀ i, total i tr < 2 ^ 64) : totalOf c i p1 ≤ v := by
  have hsh := shown_exact h he hsm ht
  obtain ⟨s3, s4, h3, h4⟩ := run_prefix h he
  simp only [step] at h4
  split_ifs at h4 with hc4
  obtain ⟨s1, s2, h1, h2⟩ := run_prefix h (p := p1) (e := .packet c) (q := p2 ++ .shown c i v :: q) (by rw [he]; simp)
  have hi := run_inv h1 (fun x hx => hsm x (hx.trans (by rw [he, List.append_assoc]; exact List.prefix_append _ _))) fun i => by
    have := ht i
    rw [he, List.append_assoc, total_append] at this
    omega
  have hnf : ¬ Fresh (owner := owner) c i p1 := by
    intro hf
    have ho := hi.fresh c i hc4.2.1 hf
    simp only [step] at h2
    split at h2
    · rename_i c' l hl
      split_ifs at h2 with hc
      simp only [Open, hc.1, hl, hc.2] at ho
      exact ho (List.mem_cons_self)
    · cases h2
  rw [hsh]
  exact (not_fresh_le hnf).trans (settled_mono i p1 _)

theorem settled_all {i : Nat} {a b : List Ev} (hp : ∀ c, .count c i ∈ a → .publish (owner c) i ∈ b) : total i a ≤ settled owner i (a ++ b) := by
  induction a with
  | nil => simp [total]
  | cons x l ih =>
    have := ih fun c hc => hp c (List.mem_cons_of_mem _ hc)
    unfold total at this ⊢
    rw [List.countP_cons]
    cases x <;> simp only [List.cons_append, settled] <;> try simpa using this
    rename_i c j
    by_cases hj : j = i
    · subst hj
      have := hp c List.mem_cons_self
      simp [this]
      omega
    · simp [hj]; omega

/-- **C83**, partial: once each thread has begun another round, STATS shows everything. -/
theorem shown_in_the_end_partial {tr a b q : List Ev} {s : S} {c i v : Nat} (h : Run owner tr s) (he : tr = a ++ b ++ .shown c i v :: q) (hsm : Small tr)
    (ht : ∀ i, total i tr < 2 ^ 64) (hb : total i b = 0) (hp : ∀ c, .count c i ∈ a → .publish (owner c) i ∈ b) : v = total i a := by
  have h1 := shown_exact h he hsm ht
  have h2 := settled_all hp
  have h3 := settled_le (owner := owner) i (a ++ b)
  rw [total_append] at h3
  omega

/-! ## Where the claim fails -/

theorem run_more {pre tr : List Ev} {s s' : S} (h : Run owner pre s) (hf : tr.foldlM (step owner) s = some s') : Run owner (pre ++ tr) s' := by
  induction tr generalizing pre s with
  | nil => cases hf; simpa using h
  | cons e l ih =>
    rw [List.foldlM_cons] at hf
    cases hs : step owner s e with
    | none => rw [hs] at hf; cases hf
    | some s1 =>
      rw [hs] at hf
      have := ih (h.step hs) hf
      simpa using this

/-- A run, if it is one. -/
def Ran (tr : List Ev) : Prop := ((tr.foldlM (step owner) init).map fun _ => ()) = some ()

instance (tr : List Ev) : Decidable (Ran (owner := owner) tr) := by unfold Ran; infer_instance

theorem Ran.run {tr : List Ev} (h : Ran (owner := owner) tr) : ∃ s, Run owner tr s := by
  unfold Ran at h
  cases hf : tr.foldlM (step owner) init with
  | none => rw [hf] at h; cases h
  | some s => exact ⟨s, by simpa using run_more Run.init hf⟩

/-- Thread `t` at the top of its loop. -/
def top (t : Nat) : List Ev := [.publish t 0, .publish t 1, .publish t 2, .publish t 3]

/-- A GET that hits on a connection, answered. -/
def get (t c : Nat) : List Ev := [.wait t [c], .packet c, .count c 0, .count c 2, .done c, .processed t, .answered c, .again t]

theorem sinceFree {tr : List Ev} (h : tr.length < 2 ^ 32) : Small tr := by
  intro p hp c i
  have h1 : ∀ p : List Ev, since c i p ≤ p.length := by
    intro p
    induction p with
    | nil => simp [since]
    | cons a l ih => simp only [since, List.length_cons]; split <;> omega
  have := h1 p
  have := hp.length_le
  omega

theorem totalFree {tr : List Ev} (h : tr.length < 2 ^ 64) (i : Nat) : total i tr < 2 ^ 64 := lt_of_le_of_lt List.countP_le_length h

/-- **C83**, the claim is false: a client of one thread has received the answer to its GET; then a client of another thread asks for STATS and is shown no GET at all. -/
theorem stats_do_not_show_all : ¬ ShowsAll (fun c => c) := by
  intro h
  obtain ⟨s, hs⟩ := Ran.run (owner := fun c => c) (tr := top 0 ++ top 1 ++ get 0 0 ++ [.wait 1 [1], .packet 1, .shown 1 0 0]) (by decide)
  have := (h _ s (top 0 ++ top 1 ++ get 0 0 ++ [.wait 1 [1], .packet 1]) [] 1 0 0 hs (by decide)).1
  exact absurd this (by decide)

/-- **C83**, the claim is false: GET and STATS in one packet; STATS does not show the GET. -/
theorem pipelined_get_not_shown : ¬ ShowsAll (fun _ => 0) := by
  intro h
  obtain ⟨s, hs⟩ := Ran.run (owner := fun _ => 0) (tr := top 0 ++ [.wait 0 [7], .packet 7, .count 7 0, .count 7 2, .shown 7 0 0]) (by decide)
  have := (h _ s (top 0 ++ [.wait 0 [7], .packet 7, .count 7 0, .count 7 2]) [] 7 0 0 hs (by decide)).2
  exact absurd this (by decide)

/-- **C83**: the counters of one STATS need not fit together: one GET, which is neither a hit nor a miss. -/
theorem gets_without_hits : ∃ tr s, Run (fun c => c) tr s ∧ total 0 tr = total 2 tr + total 3 tr ∧
    [.shown 1 0 1, .shown 1 2 0, .shown 1 3 0] <:+ tr := by
  obtain ⟨s, hs⟩ := Ran.run (owner := fun c => c)
    (tr := top 0 ++ top 1 ++ get 0 0 ++ [.publish 0 0, .wait 1 [1], .packet 1, .shown 1 0 1, .shown 1 2 0, .shown 1 3 0]) (by decide)
  exact ⟨_, s, hs, by decide, by decide⟩

/-- Hypotheses of `shown_exact`, `shown_at_most` and `shown_own_partial`: a GET, and then STATS on the same connection. -/
example : ∃ s, Run (fun c => c) (top 0 ++ get 0 0 ++ top 0 ++ [.wait 0 [0]] ++ .packet 0 :: [] ++ .shown 0 2 1 :: []) s ∧
    Small (top 0 ++ get 0 0 ++ top 0 ++ [.wait 0 [0]] ++ .packet 0 :: [] ++ .shown 0 2 1 :: []) ∧
    (∀ i, total i (top 0 ++ get 0 0 ++ top 0 ++ [.wait 0 [0]] ++ .packet 0 :: [] ++ .shown 0 2 1 :: []) < 2 ^ 64) ∧
    totalOf 0 2 (top 0 ++ get 0 0 ++ top 0 ++ [.wait 0 [0]]) = 1 := by
  obtain ⟨s, hs⟩ := Ran.run (owner := fun c => c) (tr := top 0 ++ get 0 0 ++ top 0 ++ [.wait 0 [0]] ++ .packet 0 :: [] ++ .shown 0 2 1 :: []) (by decide)
  exact ⟨s, hs, sinceFree (by decide), totalFree (by decide), by decide⟩

/-- Hypotheses of `shown_in_the_end_partial`: GETs on two threads, a round of both, and STATS. -/
example : ∃ s, Run (fun c => c) (top 0 ++ top 1 ++ get 0 0 ++ get 1 1 ++ (top 0 ++ top 1 ++ [.wait 1 [1], .packet 1]) ++ .shown 1 0 2 :: []) s ∧
    Small (top 0 ++ top 1 ++ get 0 0 ++ get 1 1 ++ (top 0 ++ top 1 ++ [.wait 1 [1], .packet 1]) ++ .shown 1 0 2 :: []) ∧
    total 0 (top 0 ++ top 1 ++ [.wait 1 [1], .packet 1]) = 0 ∧ total 0 (top 0 ++ top 1 ++ get 0 0 ++ get 1 1) = 2 ∧
    (∀ c, .count c 0 ∈ top 0 ++ top 1 ++ get 0 0 ++ get 1 1 → .publish c 0 ∈ top 0 ++ top 1 ++ [.wait 1 [1], .packet 1]) := by
  obtain ⟨s, hs⟩ := Ran.run (owner := fun c => c) (tr := top 0 ++ top 1 ++ get 0 0 ++ get 1 1 ++ (top 0 ++ top 1 ++ [.wait 1 [1], .packet 1]) ++ .shown 1 0 2 :: []) (by decide)
  refine ⟨s, hs, sinceFree (by decide), by decide, by decide, ?_⟩
  intro c hc
  simp [top, get] at hc
  rcases hc with rfl | rfl <;> decide

end Verif.Net.Count
