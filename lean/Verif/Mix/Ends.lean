import Mathlib.Tactic.Common
import Mathlib.Data.DFinsupp.WellFounded
import Verif.Mix.Progress

/-!
C117: whatever the order of the threads, the server comes to an end with what the clients have sent.
-/

namespace Verif.Mix

open Verif.Num Verif.Resp Verif.Cmd Verif.Cache Verif.Shard Verif.Map Function
open Verif.Many (Shape Goods On onShard callKey good_key)

variable {c : Ctx} {n : Nat} {kind : Nat → Kind} {pw : Bytes} {y : Sys} {clock : Nat → Nat → Env} {addr : Nat → Nat}
  {asks : Nat → List Ask} {chunks : Nat → List Bytes} {cs : Nat → List Req} {ws : Nat → List Bytes}

/-- A client with a command in execution has sent it. -/
theorem job_sent (hv : c.Valid) (hu : c.usecas = true) (hn : 0 < n) {shs : Shards} (hA : AllInv c n shs) {now0 : Int} {s : Spec.State} (hR : R c n now0 shs s)
    (hs : ∀ k it, s.dict k = some it → it.value.length ≤ Wire.longest ∧ it.expires < 2 ^ 63) (hclock : ∀ t i, Fine (kind t) (clock t i)) (hle : ∀ t i, now0 ≤ (clock t i).now)
    (hcl : Parsed pw y kind asks chunks cs ws) (hp : (server c n kind pw y clock addr).Ok) {h : List Nat} {s' : Conc.State (Nat × Loc) Sh}
    (he : Conc.Exec (server c n kind pw y clock addr) (fun t => (t, opened (kind t) pw y (clock t) (chunks t))) shs s' h) (t : Nat) :
    (s'.loc t).1 = t ∧ ∀ j, (s'.loc t).2.job = .val (some j) → (s'.loc t).2.done + 1 ≤ (ws t).length := by
  obtain ⟨locA, memA, hser, hsim⟩ := Conc.exec_sim hp no_unlock he
  obtain ⟨h1, h2, _⟩ := serial_inv hv hu hn hA hR (agr_ofState hs _) hclock hle hcl hser
  obtain ⟨g1, g2⟩ := h2 t
  cases hrel : s'.rel t with
  | true =>
    rw [(hsim.rel t hrel).1]
    refine ⟨g1, fun j hj => ?_⟩
    rcases g2 with hi | ⟨args, P, b1, b2, b3, b4, _⟩
    · rw [hi] at hj; cases hj
    · exact b4
  | false =>
    obtain ⟨m1, hrun, _⟩ := hsim.run t hrel
    obtain ⟨⟨u, l⟩, hl⟩ : ∃ x, locA t = x := ⟨_, rfl⟩
    rw [hl] at g1 g2 hrun
    simp only [] at g1 g2
    subst g1
    rcases g2 with hidle | ⟨args, P, b1, b2, b3, b4, _⟩
    · obtain ⟨e1, _⟩ := run_idle hidle hrun
      rw [e1]
      exact ⟨rfl, fun j hj => by simp only [] at hj; rw [hidle] at hj; cases hj⟩
    · obtain ⟨_, _, d3, _⟩ := run_part hv hn (hclock u l.done) b2 b3 h1 hrun
      rw [d3]
      exact ⟨rfl, fun _ _ => b4⟩

/-! ### What is left to do -/

/-- The calls after one call are less than with it; nothing to do is less than anything. -/
def Less : Option (Prog (Bytes × Bool)) → Option (Prog (Bytes × Bool)) → Prop
  | none, some _ => True
  | some p, some (.call _ k) => ∃ r, p = k r
  | _, _ => False

theorem less_wf : WellFounded Less := by
  have h0 : Acc Less none := ⟨_, fun x hx => by cases x <;> exact hx.elim⟩
  refine ⟨fun x => ?_⟩
  cases x with
  | none => exact h0
  | some p =>
    induction p with
    | ret a =>
      refine ⟨_, fun x hx => ?_⟩
      cases x with
      | none => exact h0
      | some q => exact hx.elim
    | call op k ih =>
      refine ⟨_, fun x hx => ?_⟩
      cases x with
      | none => exact h0
      | some q =>
        obtain ⟨r, rfl⟩ := hx
        exact ih r

/-- What is left to do for a client: its commands; the calls of the command in execution; the end of a call; giving back the locks, or taking a lock. -/
abbrev Left : Type := Nat × Option (Prog (Bytes × Bool)) × Nat × Nat × Nat

/-- Less is left, the first difference counts. -/
def Left.lt : Left → Left → Prop := Prod.Lex (· < ·) (Prod.Lex Less (Prod.Lex (· < ·) (Prod.Lex (· < ·) (· < ·))))

theorem left_wf : WellFounded Left.lt :=
  WellFounded.prod_lex Nat.lt_wfRel.wf (WellFounded.prod_lex less_wf (WellFounded.prod_lex Nat.lt_wfRel.wf (WellFounded.prod_lex Nat.lt_wfRel.wf Nat.lt_wfRel.wf)))

/-- The command in execution. -/
def todoOf (l : Loc) : Option (Prog (Bytes × Bool)) :=
  match l.job with
  | .val (some j) => some j.todo
  | _ => none

/-- A call has ended. -/
def endsCall (l : Loc) : Nat :=
  match l.job with
  | .val (some ⟨false, true, _⟩) => 1
  | _ => 0

/-- What is left to do for client `t`. -/
def left (p : Conc.Prog (Nat × Loc) Sh) (ws : Nat → List Bytes) (s : Conc.State (Nat × Loc) Sh) (t : Nat) : Left :=
  ((ws t).length - (s.loc t).2.done, todoOf (s.loc t).2, endsCall (s.loc t).2, if s.rel t then 1 else 0,
    if s.rel t then (s.held t).length else match p.act (s.loc t) with
      | .access _ i _ => if i ∈ (s.held t).map (·.1) then 0 else 1
      | _ => 0)

/-- A step of client `t` leaves less to do for it. -/
theorem step_left (hv : c.Valid) (hu : c.usecas = true) (hn : 0 < n) {shs : Shards} (hA : AllInv c n shs) {now0 : Int} {s : Spec.State} (hR : R c n now0 shs s)
    (hs : ∀ k it, s.dict k = some it → it.value.length ≤ Wire.longest ∧ it.expires < 2 ^ 63) (hclock : ∀ t i, Fine (kind t) (clock t i)) (hle : ∀ t i, now0 ≤ (clock t i).now)
    (hcl : Parsed pw y kind asks chunks cs ws) (hp : (server c n kind pw y clock addr).Ok) {h : List Nat} {s1 s2 : Conc.State (Nat × Loc) Sh}
    (he : Conc.Exec (server c n kind pw y clock addr) (fun t => (t, opened (kind t) pw y (clock t) (chunks t))) shs s1 h) {t : Nat} {b : Bool}
    (hst : Conc.Step (server c n kind pw y clock addr) t s1 b s2) :
    Left.lt (left (server c n kind pw y clock addr) ws s2 t) (left (server c n kind pw y clock addr) ws s1 t) ∧
      ∀ u, u ≠ t → left (server c n kind pw y clock addr) ws s2 u = left (server c n kind pw y clock addr) ws s1 u := by
  have hl := he.lockInv hp
  obtain ⟨_, hsent⟩ := job_sent hv hu hn hA hR hs hclock hle hcl hp he t
  cases hst with
  | @lock own i f hr ha hl0 =>
    refine ⟨?_, fun u hut => by simp only [left, update_of_ne hut]⟩
    have hno : i ∉ (s1.held t).map (·.1) := by
      intro hc
      obtain ⟨⟨j, b'⟩, h1, rfl⟩ := List.mem_map.1 hc
      exact hl.free j hl0 t b' h1
    simp only [left, ha, hr, update_self, Bool.false_eq_true, if_false, if_neg hno, List.map_cons, List.mem_cons, true_or, if_true]
    exact Prod.Lex.right _ (Prod.Lex.right _ (Prod.Lex.right _ (Prod.Lex.right _ Nat.zero_lt_one)))
  | @access own i f hr ha hal =>
    refine ⟨?_, fun u hut => by simp only [left, update_of_ne hut]⟩
    obtain ⟨used, op, k, key, a1, _, a3, rfl, a5⟩ := act_access ha
    have hd : ((f (s1.mem (shardIdx c n key))).1).2.done = (s1.loc t).2.done ∧
        Less (todoOf ((f (s1.mem (shardIdx c n key))).1).2) (todoOf (s1.loc t).2) := by
      have ht : todoOf (s1.loc t).2 = some (.call op k) := by unfold todoOf; rw [a1]
      rw [a5, ht]
      cases onShard c (clock (s1.loc t).1 (s1.loc t).2.done).now (toOp op) (s1.mem (shardIdx c n key)) with
      | val r => exact ⟨rfl, ⟨_, rfl⟩⟩
      | hang => exact ⟨rfl, trivial⟩
      | ub => exact ⟨rfl, trivial⟩
      | abort w => exact ⟨rfl, trivial⟩
    unfold left
    simp only [update_self]
    rw [hd.1]
    exact Prod.Lex.right _ (Prod.Lex.left _ _ hd.2)
  | @unlock i l _ ha _ => exact absurd ha (no_unlock _ _ _)
  | @commit l hr ha =>
    refine ⟨?_, fun u hut => by simp only [left, update_of_ne hut]⟩
    rcases act_commit ha with ⟨own, used, out, close, a1, a2⟩ | ⟨op, k, a1, a2⟩
    · have h1 := hsent _ a1
      have h2 : l.2.done = (s1.loc t).2.done + 1 := by
        rw [a2]
        simp only []
        split
        · rfl
        · unfold advance
          split <;> rfl
      unfold left
      simp only [update_self]
      refine Prod.Lex.left _ _ ?_
      rw [h2]
      omega
    · unfold left
      simp only [update_self]
      have e1 : endsCall (s1.loc t).2 = 1 := by unfold endsCall; rw [a1]
      have e2 : endsCall l.2 = 0 := by rw [a2]; rfl
      have e3 : todoOf l.2 = todoOf (s1.loc t).2 := by unfold todoOf; rw [a1, a2]
      have e4 : l.2.done = (s1.loc t).2.done := by rw [a2]
      rw [e1, e2, e3, e4]
      exact Prod.Lex.right _ (Prod.Lex.right _ (Prod.Lex.left _ _ Nat.zero_lt_one))
  | @release x xs hr hx' =>
    refine ⟨?_, fun u hut => by simp only [left, update_of_ne hut]⟩
    simp only [left, update_self, hr, if_true, hx', List.length_cons]
    exact Prod.Lex.right _ (Prod.Lex.right _ (Prod.Lex.right _ (Prod.Lex.right _ (Nat.lt_succ_self _))))
  | @next hr hx' =>
    refine ⟨?_, fun u hut => by simp only [left, update_of_ne hut]⟩
    unfold left
    simp only [update_self, hr, if_true]
    exact Prod.Lex.right _ (Prod.Lex.right _ (Prod.Lex.right _ (Prod.Lex.left _ _ Nat.zero_lt_one)))

/-- A client that has sent nothing does nothing. -/
theorem silent {shs : Shards} {h : List Nat} {s' : Conc.State (Nat × Loc) Sh}
    (he : Conc.Exec (server c n kind pw y clock addr) (fun t => (t, opened (kind t) pw y (clock t) (chunks t))) shs s' h) {t : Nat} (ht : chunks t = []) :
    ((s'.loc t).2.job = .val none ∧ s'.rel t = false) ∧ ∀ b s'', ¬ Conc.Step (server c n kind pw y clock addr) t s' b s'' := by
  have key : ∀ {s1 : Conc.State (Nat × Loc) Sh}, (s1.loc t).2.job = .val none → s1.rel t = false → ∀ b s'', ¬ Conc.Step (server c n kind pw y clock addr) t s1 b s'' := by
    intro s1 h1 h2 b s'' hst
    cases hst with
    | lock _ ha _ => obtain ⟨_, _, _, _, a1, _⟩ := act_access ha; rw [h1] at a1; cases a1
    | access _ ha _ => obtain ⟨_, _, _, _, a1, _⟩ := act_access ha; rw [h1] at a1; cases a1
    | unlock _ ha _ => exact absurd ha (no_unlock _ _ _)
    | commit _ ha => rcases act_commit ha with ⟨_, _, _, _, a1, _⟩ | ⟨_, _, a1, _⟩ <;> rw [h1] at a1 <;> cases a1
    | release hr _ => rw [h2] at hr; cases hr
    | next hr _ => rw [h2] at hr; cases hr
  suffices hk : (s'.loc t).2.job = .val none ∧ s'.rel t = false from ⟨hk, key hk.1 hk.2⟩
  induction he with
  | start => exact ⟨by simp only [Conc.start, ht]; rfl, rfl⟩
  | @step s1 s2 h u b hx hst ih =>
    by_cases hut : t = u
    · subst hut
      exact absurd hst (key ih.1 ih.2 _ _)
    · cases hst with
      | lock _ _ _ => exact ih
      | access _ _ _ => simpa only [update_of_ne hut] using ih
      | unlock _ ha _ => exact absurd ha (no_unlock _ _ _)
      | commit _ _ => simpa only [update_of_ne hut] using ih
      | release _ _ => exact ih
      | next _ _ => simpa only [update_of_ne hut] using ih

/-- What can happen next, after something. -/
theorem steps_wf (hv : c.Valid) (hu : c.usecas = true) (hn : 0 < n) {shs : Shards} (hA : AllInv c n shs) {now0 : Int} {s : Spec.State} (hR : R c n now0 shs s)
    (hs : ∀ k it, s.dict k = some it → it.value.length ≤ Wire.longest ∧ it.expires < 2 ^ 63) (hver : ∀ b ∈ y.version, 32 ≤ b)
    (hclock : ∀ t i, Fine (kind t) (clock t i)) (hle : ∀ t i, now0 ≤ (clock t i).now) (hcl : Clients pw kind asks chunks ws) (hp : (server c n kind pw y clock addr).Ok)
    {N : Nat} (hfew : ∀ t, N ≤ t → chunks t = []) :
    WellFounded fun s2 s1 : Conc.State (Nat × Loc) Sh =>
      (∃ h, Conc.Exec (server c n kind pw y clock addr) (fun t => (t, opened (kind t) pw y (clock t) (chunks t))) shs s1 h) ∧
        ∃ t b, Conc.Step (server c n kind pw y clock addr) t s1 b s2 := by
  obtain ⟨cs, hcs⟩ := hcl.parsed hver
  refine Subrelation.wf (r := InvImage (Pi.Lex (· < ·) (fun {_ : Fin N} => Left.lt)) fun st (t : Fin N) => left (server c n kind pw y clock addr) ws st t) ?_
    (InvImage.wf _ (Pi.Lex.wellFounded _ fun _ => left_wf))
  rintro s2 s1 ⟨⟨h, he⟩, t, b, hst⟩
  have ht : t < N := by
    by_contra hc
    exact (silent he (hfew t (by omega))).2 _ _ hst
  obtain ⟨h1, h2⟩ := step_left hv hu hn hA hR hs hclock hle hcs hp he hst
  exact ⟨⟨t, ht⟩, fun j hj => h2 j (Nat.ne_of_lt hj), h1⟩

/-- **C117.**  If only finitely many clients have sent something, the server does not go on for ever: there is no endless sequence of steps, whatever the order in which the threads
run (a failed attempt to lock is not a step). -/
theorem all_end (hv : c.Valid) (hu : c.usecas = true) (hn : 0 < n) {shs : Shards} (hA : AllInv c n shs) {now0 : Int} {s : Spec.State} (hR : R c n now0 shs s)
    (hs : ∀ k it, s.dict k = some it → it.value.length ≤ Wire.longest ∧ it.expires < 2 ^ 63) (hver : ∀ b ∈ y.version, 32 ≤ b)
    (hclock : ∀ t i, Fine (kind t) (clock t i)) (hle : ∀ t i, now0 ≤ (clock t i).now) (hcl : Clients pw kind asks chunks ws) (hp : (server c n kind pw y clock addr).Ok)
    {N : Nat} (hfew : ∀ t, N ≤ t → chunks t = []) :
    ¬ ∃ f : Nat → Conc.State (Nat × Loc) Sh, f 0 = Conc.start (fun t => (t, opened (kind t) pw y (clock t) (chunks t))) shs ∧
      ∀ i, ∃ t b, Conc.Step (server c n kind pw y clock addr) t (f i) b (f (i + 1)) := by
  rintro ⟨f, h0, hf⟩
  have hex : ∀ i, ∃ h, Conc.Exec (server c n kind pw y clock addr) (fun t => (t, opened (kind t) pw y (clock t) (chunks t))) shs (f i) h := by
    intro i
    induction i with
    | zero => exact ⟨[], h0 ▸ .start⟩
    | succ i ih =>
      obtain ⟨h, hx⟩ := ih
      obtain ⟨t, b, hst⟩ := hf i
      exact ⟨_, .step hx hst⟩
  have hwf := steps_wf hv hu hn hA hR hs hver hclock hle hcl hp hfew
  have : ∀ st i, f i = st → False := by
    intro st
    induction st using hwf.induction with
    | _ st ih => exact fun i hi => ih (f (i + 1)) (hi ▸ ⟨hex i, hf i⟩) (i + 1) rfl
  exact this _ 0 rfl

/-- **C117.**  From wherever the clients have got, the server can go on until nothing can happen any more; and (C116) then every client has got all its replies. -/
theorem all_finish (hv : c.Valid) (hu : c.usecas = true) (hn : 0 < n) {shs : Shards} (hA : AllInv c n shs) {now0 : Int} {s : Spec.State} (hR : R c n now0 shs s)
    (hs : ∀ k it, s.dict k = some it → it.value.length ≤ Wire.longest ∧ it.expires < 2 ^ 63) (hver : ∀ b ∈ y.version, 32 ≤ b)
    (hclock : ∀ t i, Fine (kind t) (clock t i)) (hle : ∀ t i, now0 ≤ (clock t i).now) (hcl : Clients pw kind asks chunks ws) (hp : (server c n kind pw y clock addr).Ok)
    {N : Nat} (hfew : ∀ t, N ≤ t → chunks t = []) {h : List Nat} {s' : Conc.State (Nat × Loc) Sh}
    (he : Conc.Exec (server c n kind pw y clock addr) (fun t => (t, opened (kind t) pw y (clock t) (chunks t))) shs s' h) :
    ∃ h' s'', Conc.Exec (server c n kind pw y clock addr) (fun t => (t, opened (kind t) pw y (clock t) (chunks t))) shs s'' (h ++ h') ∧
      (∀ t b s3, ¬ Conc.Step (server c n kind pw y clock addr) t s'' b s3) ∧
      ((∀ t, (s''.loc t).2.job ≠ .abort true) → NoWrap n s''.mem →
        ∃ evs rs m, evs.map (·.who) = h ++ h' ∧ Story y.version clock asks (McWire.ofState (shardIdx c n) s) evs rs (fun _ => []) m ∧
          ∀ t, Reads (s''.loc t).2.sent (rs t) ∧ ∃ tail, Received (ws t) (chunks t).flatten (rs t).length tail) := by
  have hwf := steps_wf hv hu hn hA hR hs hver hclock hle hcl hp hfew
  induction s' using hwf.induction generalizing h with
  | _ s' ih =>
    by_cases hend : ∀ t b s3, ¬ Conc.Step (server c n kind pw y clock addr) t s' b s3
    · refine ⟨[], s', by rwa [List.append_nil], hend, fun halive hnw => ?_⟩
      rw [List.append_nil]
      exact all_answered hv hu hn hA hR hs hclock hle hver hcl hp he halive hend hnw
    · simp only [not_forall, not_not] at hend
      obtain ⟨t, b, s3, hst⟩ := hend
      obtain ⟨h', s'', g1, g2, g3⟩ := ih s3 ⟨⟨h, he⟩, t, b, hst⟩ (.step he hst)
      have e : (if b = true then h ++ [t] else h) ++ h' = h ++ ((if b = true then [t] else []) ++ h') := by
        cases b <;> simp
      rw [e] at g1 g3
      exact ⟨_, s'', g1, g2, g3⟩

end Verif.Mix
