import Mathlib.Tactic.Common
import Verif.Cmd.Single

/-!
C92: the counters shown by STATS that the commands maintain.  The commands are those of `Verif.Cmd.Model`; here the `stat_*_incr` calls are
put back in.
-/

namespace Verif.Cmd

open Verif.Num Verif.Resp Verif.Cache Function

/-- Counters, `/repo/src/stats.c:15-34` and `/repo/src/net.c:516-519`, as far as `cmds.c` increments them (`cmd_flush` and those of the parsers
are left out; 64-bit wrap-around is left out).  `Verif.Net.Loop` has the way of the first four from the connection to the total. -/
structure Stat where
  cmdGet : Nat := 0
  cmdSet : Nat := 0
  cmdTouch : Nat := 0
  getHits : Nat := 0
  getMisses : Nat := 0
  deleteHits : Nat := 0
  deleteMisses : Nat := 0
  incrHits : Nat := 0
  incrMisses : Nat := 0
  decrHits : Nat := 0
  decrMisses : Nat := 0
  touchHits : Nat := 0
  touchMisses : Nat := 0
  noMemory : Nat := 0
  authCmds : Nat := 0
  authErrors : Nat := 0
deriving DecidableEq, Repr

/-- Increments one after the other. -/
def Stat.add (a b : Stat) : Stat :=
  ⟨a.cmdGet + b.cmdGet, a.cmdSet + b.cmdSet, a.cmdTouch + b.cmdTouch, a.getHits + b.getHits, a.getMisses + b.getMisses,
   a.deleteHits + b.deleteHits, a.deleteMisses + b.deleteMisses, a.incrHits + b.incrHits, a.incrMisses + b.incrMisses,
   a.decrHits + b.decrHits, a.decrMisses + b.decrMisses, a.touchHits + b.touchHits, a.touchMisses + b.touchMisses,
   a.noMemory + b.noMemory, a.authCmds + b.authCmds, a.authErrors + b.authErrors⟩

/-- A command whose counters are incremented after each call of the cache, depending on the call and its result. -/
def Prog.tally {α : Type} (f : Spec.Call → Spec.Reply → Stat) : Prog α → Prog (α × Stat)
  | .ret a => .ret (a, {})
  | .call c k => .call c fun r => ((k r).tally f).map fun x => (x.1, (f c r).add x.2)

/-- `execSET`, `/repo/src/cmds.c:88, 104-105` (the first one stands before the call). -/
def tickSET (c : Spec.Call) (r : Spec.Reply) : Stat :=
  match c with
  | .store _ => if r.status = .nomem then { cmdSet := 1, noMemory := 1 } else { cmdSet := 1 }
  | _ => {}

/-- `cmdGET`, `/repo/src/cmds.c:424-434`; also `cmdTTL`, `/repo/src/cmds.c:989-996`. -/
def tickGET (_ : Spec.Call) (r : Spec.Reply) : Stat := if r.status = .notfound then { getMisses := 1 } else { getHits := 1 }

/-- The loop of `cmdMGET`, `/repo/src/cmds.c:474-486`. -/
def tickMGET (_ : Spec.Call) (r : Spec.Reply) : Stat :=
  if r.status = .notfound then { cmdGet := 1, getMisses := 1 } else { cmdGet := 1, getHits := 1 }

/-- The loop of `cmdDEL`, `/repo/src/cmds.c:628-633`. -/
def tickDEL (_ : Spec.Call) (r : Spec.Reply) : Stat := if r.status = .deleted then { deleteHits := 1 } else { deleteMisses := 1 }

/-- The loop of `cmdTOUCH`, `/repo/src/cmds.c:1602-1611`. -/
def tickTOUCH (_ : Spec.Call) (r : Spec.Reply) : Stat :=
  if r.status = .found then { cmdTouch := 1, touchHits := 1 } else { cmdTouch := 1, touchMisses := 1 }

/-- `execINCRDECR`, `/repo/src/cmds.c:1677-1684` (`miss`), `1722-1728, 1746` (`hit`) and the label `done`, `1755-1768`. -/
def tickINCR (e : Env) (decr : Bool) (c : Spec.Call) (r : Spec.Reply) : Stat :=
  match c with
  | .load .. => if r.status ≠ .found ∧ e.proto = .memcache then (if decr then { decrMisses := 1 } else { incrMisses := 1 }) else {}
  | .store _ =>
    if r.status = .nomem then { noMemory := 1 }
    else if r.status = .inserted ∨ r.status = .replaced then (if decr then { decrHits := 1 } else { incrHits := 1 })
    else {}
  | _ => {}

/-- `cmdAUTH`, `/repo/src/cmds.c:1942-1966`. -/
def tickAUTH (password : Bytes) (args : List Bytes) : Stat :=
  if argeq (args.headD []) [97, 117, 116, 104] = false then { authCmds := 1, authErrors := 1 }
  else if args.length = 3 then { authCmds := 1, authErrors := 1 }
  else if args.length > 3 then { authCmds := 1, authErrors := 1 }
  else
    match args with
    | [_, pw] => if pw ≠ password then { authCmds := 1, authErrors := 1 } else { authCmds := 1 }
    | _ => { authCmds := 1, authErrors := 1 }

/-- The commands with their counters.  `cmdGET` counts itself first, `/repo/src/cmds.c:395`. -/
def counted (e : Env) (password : Bytes) (other : Fn → Env → List Bytes → Prog (List W)) (fn : Fn) (args : List Bytes) (st : ConnSt) :
    Prog ((List W × ConnSt) × Stat) :=
  let p := call e password other fn args st
  match fn with
  | .cmdSET | .cmdSETEX => p.tally tickSET
  | .cmdGET => (p.tally tickGET).map fun x => (x.1, Stat.add { cmdGet := 1 } x.2)
  | .cmdTTL => p.tally tickGET
  | .cmdMGET => p.tally tickMGET
  | .cmdDEL => p.tally tickDEL
  | .cmdTOUCH => p.tally tickTOUCH
  | .cmdINCRBY | .cmdINCR => p.tally (tickINCR e false)
  | .cmdDECRBY | .cmdDECR => p.tally (tickINCR e true)
  | .cmdAUTH => p.map fun x => (x, tickAUTH password args)
  | _ => p.map fun x => (x, {})

/-- `evcommand`, `/repo/src/cmds.c:2379-2410`, with the counters. -/
def evcommandC (e : Env) (password : Bytes) (other : Fn → Env → List Bytes → Prog (List W)) (args : List Bytes) (st : ConnSt) :
    Prog ((List W × ConnSt) × Stat) :=
  let useauth := password ≠ []
  if useauth ∧ st.auth = false ∧ e.proto ≠ .http then .ret (cmdAUTH e password args st, tickAUTH password args)
  else
    match getCmd (args.headD []) with
    | none => .ret (([.undefined], st), {})
    | some none => .ret (([.err (.unknownCommand (args.headD []))], st), {})
    | some (some x) => counted e password other x.2 args st

/-! ### The counters do not change what a command does -/

theorem Prog.map_map {α β γ : Type} (f : α → β) (g : β → γ) (p : Prog α) : (p.map f).map g = p.map (g ∘ f) := by
  induction p with
  | ret a => rfl
  | call c k ih => simp only [Prog.map]; congr 1; funext r; exact ih r

theorem Prog.map_id {α : Type} (p : Prog α) : p.map (fun x => x) = p := by
  induction p with
  | ret a => rfl
  | call c k ih => simp only [Prog.map]; congr 1; funext r; exact ih r

theorem tally_fst {α : Type} (f : Spec.Call → Spec.Reply → Stat) (p : Prog α) : (p.tally f).map (·.1) = p := by
  induction p with
  | ret a => rfl
  | call c k ih =>
    simp only [Prog.tally, Prog.map]
    congr 1
    funext r
    rw [Prog.map_map]
    exact ih r

/-- Without the counters these are the commands of `Verif.Cmd.Table`. -/
theorem evcommandC_fst (e : Env) (pw : Bytes) (other : Fn → Env → List Bytes → Prog (List W)) (args : List Bytes) (st : ConnSt) :
    (evcommandC e pw other args st).map (·.1) = evcommand e pw other args st := by
  unfold evcommandC evcommand
  simp only []
  split
  · rfl
  · rcases getCmd (args.headD []) with _ | _ | x
    · rfl
    · rfl
    · unfold counted
      simp only []
      split
      all_goals first
        | exact tally_fst _ _
        | (rw [Prog.map_map]; exact tally_fst _ _)
        | (rw [Prog.map_map]; exact Prog.map_id _)

/-! ### Executions -/

/-- A command line is executed on a connection that may execute commands, giving replies `out` and increments `n`. -/
def Counts (env : Spec.Env) (I : Spec.State → Spec.State → Prop) (oom : Bool) (e : Env) (pw : Bytes)
    (other : Fn → Env → List Bytes → Prog (List W)) (args : List Bytes) (s : Spec.State) (out : List W) (n : Stat) (s' : Spec.State) : Prop :=
  ∃ st', Runs env I oom e.now (evcommandC e pw other args ⟨true⟩) s ((out, st'), n) s'

variable {env : Spec.Env} {I : Spec.State → Spec.State → Prop} {oom : Bool} {e : Env} {pw : Bytes}
  {other : Fn → Env → List Bytes → Prog (List W)}

theorem Counts.executes {args : List Bytes} {s s' : Spec.State} {out : List W} {n : Stat} (h : Counts env I oom e pw other args s out n s') :
    Executes env I oom e pw other args s out s' := by
  obtain ⟨st', h⟩ := h
  refine ⟨st', ?_⟩
  rw [← evcommandC_fst]
  exact runs_map_of h

theorem runs_unmap {α β : Type} {now : Int} {f : α → β} {p : Prog α} {b : β} {s s' : Spec.State}
    (h : Runs env I oom now (p.map f) s b s') : ∃ a, Runs env I oom now p s a s' ∧ b = f a := runs_map h

/-- Every execution has its increments. -/
theorem Counts.of_executes {args : List Bytes} {s s' : Spec.State} {out : List W} (h : Executes env I oom e pw other args s out s') :
    ∃ n, Counts env I oom e pw other args s out n s' := by
  obtain ⟨st', h⟩ := h
  rw [← evcommandC_fst] at h
  obtain ⟨⟨x, n⟩, h1, h2⟩ := runs_unmap h
  simp only [] at h2
  exact ⟨n, st', by rw [h2]; exact h1⟩

theorem counts_iff {name low : Bytes} {fn : Fn} {as : List Bytes} (hs : Spells name low) (hm : (low, fn) ∈ cmds)
    {s s' : Spec.State} {out : List W} {n : Stat} :
    Counts env I oom e pw other (name :: as) s out n s' ↔
      ∃ st', Runs env I oom e.now (counted e pw other fn (name :: as) ⟨true⟩) s ((out, st'), n) s' := by
  have : evcommandC e pw other (name :: as) ⟨true⟩ = counted e pw other fn (name :: as) ⟨true⟩ := by
    unfold evcommandC
    simp only [Bool.true_eq_false, false_and, and_false, if_false, List.headD_cons]
    rw [getCmd_of hs hm]
  unfold Counts
  rw [this]

theorem tally_map {α β : Type} (f : Spec.Call → Spec.Reply → Stat) (g : α → β) (p : Prog α) :
    (p.map g).tally f = (p.tally f).map fun x => (g x.1, x.2) := by
  induction p with
  | ret a => rfl
  | call c k ih =>
    simp only [Prog.tally, Prog.map]
    congr 1
    funext r
    rw [ih r, Prog.map_map, Prog.map_map]
    rfl

theorem tally_ret {α : Type} {now : Int} {f : Spec.Call → Spec.Reply → Stat} {a b : α} {n : Stat} {s s' : Spec.State}
    (h : Runs env I oom now ((Prog.ret a).tally f) s (b, n) s') : b = a ∧ n = {} ∧ s' = s := by
  obtain ⟨h1, h2⟩ := runs_ret h
  simp only [Prod.mk.injEq] at h1
  exact ⟨h1.1, h1.2, h2⟩

theorem tally_call {α : Type} {now : Int} {f : Spec.Call → Spec.Reply → Stat} {c : Spec.Call} {k : Spec.Reply → Prog α} {b : α} {n : Stat}
    {s s' : Spec.State} (h : Runs env I oom now ((Prog.call c k).tally f) s (b, n) s') :
    ∃ s1 r s2 m, I s s1 ∧ Spec.Step env oom now c s1 r s2 ∧ Runs env I oom now ((k r).tally f) s2 (b, m) s' ∧ n = (f c r).add m := by
  obtain ⟨s1, r, s2, h1, h2, h3⟩ := runs_call h
  obtain ⟨⟨a, m⟩, h4, h5⟩ := runs_map h3
  simp only [Prod.mk.injEq] at h5
  exact ⟨s1, r, s2, m, h1, h2, by rw [h5.1]; exact h4, h5.2⟩

/-- What holds of no increments, of the increments of each call, and of sums, holds of the increments of a command. -/
theorem tally_inv {α : Type} {now : Int} {f : Spec.Call → Spec.Reply → Stat} (P : Stat → Prop) (h0 : P {})
    (hadd : ∀ a b, P a → P b → P (a.add b)) (hf : ∀ c r, P (f c r)) {p : Prog α} {b : α} {n : Stat} {s s' : Spec.State}
    (h : Runs env I oom now (p.tally f) s (b, n) s') : P n := by
  induction p generalizing s b n with
  | ret a => rw [(tally_ret h).2.1]; exact h0
  | call c k ih =>
    obtain ⟨s1, r, s2, m, _, _, h3, h4⟩ := tally_call h
    rw [h4]
    exact hadd _ _ (hf c r) (ih r h3)

theorem tally_keep {now : Int} {f : Spec.Call → Spec.Reply → Stat} {st : ConnSt} {p : Prog (List W)} {out : List W} {st' : ConnSt} {n : Stat}
    {s s' : Spec.State} (h : Runs env I oom now ((p.map (·, st)).tally f) s ((out, st'), n) s') :
    Runs env I oom now (p.tally f) s (out, n) s' := by
  rw [tally_map] at h
  obtain ⟨⟨a, m⟩, h1, h2⟩ := runs_map h
  simp only [Prod.mk.injEq] at h2
  obtain ⟨⟨rfl, _⟩, rfl⟩ := h2
  exact h1

/-! ### GET and MGET -/

/-- Present or not, as a number. -/
def here (d : Spec.Dict) (now : Int) (k : Bytes) : Nat := if d.get now k = none then 0 else 1

theorem here_le (d : Spec.Dict) (now : Int) (k : Bytes) : here d now k ≤ 1 := by unfold here; split <;> omega

/-- Each key is looked at once, in order, while others may do what `I` allows in between; `hs` says which were there. -/
def Looks (I : Spec.State → Spec.State → Prop) (now : Int) (ks : List Bytes) (s : Spec.State) (hs : List Nat) (s' : Spec.State) : Prop :=
  Each (fun k s (n : Nat) s' => I s s' ∧ n = here s'.dict now k) ks s hs s'

theorem Looks.sum_le {now : Int} {ks : List Bytes} {s s' : Spec.State} {hs : List Nat} (h : Looks I now ks s hs s') : hs.sum ≤ ks.length := by
  unfold Looks at h
  induction h with
  | nil => simp
  | @cons k ks s s1 s2 w ws h1 _ ih =>
    have := here_le s1.dict now k
    rw [← h1.2] at this
    simp only [List.sum_cons, List.length_cons]
    omega

/-- **C92, GET.**  On every protocol, whatever others do: one more `cmd_get`, and one more hit if the key was there, one more miss if not. -/
theorem get_counted {name key : Bytes} {s s' : Spec.State} {out : List W} {n : Stat} (hn : Spells name getName)
    (h : Counts env I oom e pw other [name, key] s out n s') :
    I s s' ∧ n = { cmdGet := 1, getHits := here s'.dict e.now key, getMisses := 1 - here s'.dict e.now key } := by
  rw [counts_iff hn (by decide : (_, Fn.cmdGET) ∈ cmds)] at h
  obtain ⟨st', h⟩ := h
  obtain ⟨⟨a, m⟩, h1, h2⟩ := runs_map h
  simp only [Prod.mk.injEq] at h2
  obtain ⟨rfl, rfl⟩ := h2
  have h1 := tally_keep (p := cmdGET e [name, key]) h1
  unfold cmdGET at h1
  obtain ⟨s1, r, s2, m', hI, hst, h3, h4⟩ := tally_call h1
  obtain ⟨rfl, h5⟩ := load_step hst
  have h6 : m' = {} ∧ s' = s2 := by
    split at h3
    · exact (tally_ret h3).2
    · split at h3
      · exact (tally_ret h3).2
      · exact (tally_ret h3).2
  obtain ⟨rfl, rfl⟩ := h6
  refine ⟨hI, ?_⟩
  rw [h4]
  rcases h5 with ⟨h5, rfl⟩ | ⟨it, h5, rfl⟩
  · simp [here, h5, tickGET, Stat.add]
  · simp [here, h5, tickGET, Stat.add]

theorem mgetLoop_counted (kind : Kind) (ks : List Bytes) (out0 : List W) (c : Nat) {s s' : Spec.State} {out : List W} {n : Stat}
    (h : Runs env I oom e.now ((mgetLoop e kind ks out0 c).tally tickMGET) s (out, n) s') :
    ∃ hs, Looks I e.now ks s hs s' ∧ n = { cmdGet := ks.length, getHits := hs.sum, getMisses := ks.length - hs.sum } := by
  induction ks generalizing out0 c s n with
  | nil =>
    unfold mgetLoop at h
    obtain ⟨_, rfl, rfl⟩ := tally_ret h
    exact ⟨[], .nil _, rfl⟩
  | cons k ks ih =>
    unfold mgetLoop at h
    obtain ⟨s1, r, s2, m, h1, h2, h3, rfl⟩ := tally_call h
    obtain ⟨rfl, h4⟩ := load_step h2
    obtain ⟨hs, h5, rfl⟩ := ih _ _ h3
    refine ⟨here s2.dict e.now k :: hs, .cons ⟨h1, rfl⟩ h5, ?_⟩
    have hle := h5.sum_le
    rcases h4 with ⟨h4, rfl⟩ | ⟨it, h4, rfl⟩
    · simp [here, h4, tickMGET, Stat.add]; omega
    · simp [here, h4, tickMGET, Stat.add]; omega

/-- **C92, MGET and MGETS.**  On every protocol, whatever others do in between: one more `cmd_get` for each key, one more hit for each key that was
there, one more miss for each that was not. -/
theorem mget_counted {name low : Bytes} {ks : List Bytes} {s s' : Spec.State} {out : List W} {n : Stat} (hn : Spells name low)
    (hl : low = mgetName ∨ low = mgetsName) (hks : ks ≠ []) (h : Counts env I oom e pw other (name :: ks) s out n s') :
    ∃ hs, Looks I e.now ks s hs s' ∧ n = { cmdGet := ks.length, getHits := hs.sum, getMisses := ks.length - hs.sum } := by
  have hm : (low, Fn.cmdMGET) ∈ cmds := by rcases hl with rfl | rfl <;> decide
  rw [counts_iff hn hm] at h
  obtain ⟨st', h⟩ := h
  have h1 := tally_keep (p := cmdMGET e (name :: ks)) h
  cases ks with
  | nil => exact absurd rfl hks
  | cons k ks =>
    unfold cmdMGET at h1
    exact mgetLoop_counted _ _ _ _ h1

/-! ### DEL and TOUCH -/

/-- Each key is deleted, in order; `hs` says which were there. -/
def Deletes (I : Spec.State → Spec.State → Prop) (now : Int) (ks : List Bytes) (s : Spec.State) (hs : List Nat) (s' : Spec.State) : Prop :=
  Each (fun k s (n : Nat) s' => ∃ s1, I s s1 ∧ n = here s1.dict now k ∧
    s' = if s1.dict.get now k = none then s1 else ⟨update s1.dict k none, s1.tok⟩) ks s hs s'

theorem Deletes.sum_le {now : Int} {ks : List Bytes} {s s' : Spec.State} {hs : List Nat} (h : Deletes I now ks s hs s') :
    hs.sum ≤ ks.length := by
  unfold Deletes at h
  induction h with
  | nil => simp
  | @cons k ks s s1 s2 w ws h1 _ ih =>
    obtain ⟨s1', _, h2, _⟩ := h1
    have := here_le s1'.dict now k
    rw [← h2] at this
    simp only [List.sum_cons, List.length_cons]
    omega

theorem delLoop_counted (ks : List Bytes) (d : Nat) {s s' : Spec.State} {out : List W} {n : Stat}
    (h : Runs env I oom e.now ((delLoop e ks d).tally tickDEL) s (out, n) s') :
    ∃ hs, Deletes I e.now ks s hs s' ∧ n = { deleteHits := hs.sum, deleteMisses := ks.length - hs.sum } ∧
      (e.proto = .resp → out = [.int (d + hs.sum : Nat)]) := by
  induction ks generalizing d s n with
  | nil =>
    unfold delLoop at h
    split at h
    · rename_i hp; obtain ⟨_, rfl, rfl⟩ := tally_ret h; exact ⟨[], .nil _, rfl, fun hc => absurd (hp.symm.trans hc) (by decide)⟩
    · rename_i hp; obtain ⟨_, rfl, rfl⟩ := tally_ret h; exact ⟨[], .nil _, rfl, fun hc => absurd (hp.symm.trans hc) (by decide)⟩
    · rename_i hp; obtain ⟨_, rfl, rfl⟩ := tally_ret h; exact ⟨[], .nil _, rfl, fun hc => absurd (hp.symm.trans hc) (by decide)⟩
    · obtain ⟨rfl, rfl, rfl⟩ := tally_ret h; exact ⟨[], .nil _, rfl, fun _ => by simp⟩
  | cons k ks ih =>
    unfold delLoop at h
    obtain ⟨s1, r, s2, m, h1, h2, h3, rfl⟩ := tally_call h
    obtain ⟨hs, h5, rfl, h6⟩ := ih _ h3
    have hle := h5.sum_le
    have h4 : (s1.dict.get e.now k = none ∧ r.status ≠ .deleted ∧ s2 = s1) ∨
        (s1.dict.get e.now k ≠ none ∧ r.status = .deleted ∧ s2 = ⟨update s1.dict k none, s1.tok⟩) := by
      cases hg : s1.dict.get e.now k with
      | none => simp [Spec.Step, hg] at h2; obtain ⟨rfl, rfl⟩ := h2; simp
      | some it => simp [Spec.Step, hg] at h2; obtain ⟨rfl, rfl⟩ := h2; simp
    rcases h4 with ⟨hg, hr, rfl⟩ | ⟨hg, hr, rfl⟩
    · refine ⟨0 :: hs, .cons ⟨s2, h1, by simp [here, hg], by rw [if_pos hg]⟩ h5, ?_, ?_⟩
      · simp [tickDEL, hr, Stat.add]; omega
      · intro hp; rw [h6 hp, if_neg hr]; simp
    · refine ⟨1 :: hs, .cons ⟨s1, h1, by simp [here, hg], by rw [if_neg hg]⟩ h5, ?_, ?_⟩
      · simp [tickDEL, hr, Stat.add]; omega
      · intro hp; rw [h6 hp, if_pos hr]; simp; omega

/-- **C92, DEL.**  On every protocol, whatever others do in between: one more delete hit for each key that was there (and is gone) and one more miss for
each that was not; on a RESP connection the reply is the number of hits. -/
theorem del_counted {name : Bytes} {ks : List Bytes} {s s' : Spec.State} {out : List W} {n : Stat} (hn : Spells name delName) (hks : ks ≠ [])
    (h : Counts env I oom e pw other (name :: ks) s out n s') :
    ∃ hs, Deletes I e.now ks s hs s' ∧ n = { deleteHits := hs.sum, deleteMisses := ks.length - hs.sum } ∧
      (e.proto = .resp → out = [.int n.deleteHits]) := by
  rw [counts_iff hn (by decide : (_, Fn.cmdDEL) ∈ cmds)] at h
  obtain ⟨st', h⟩ := h
  have h1 := tally_keep (p := cmdDEL e (name :: ks)) h
  cases ks with
  | nil => exact absurd rfl hks
  | cons k ks =>
    unfold cmdDEL at h1
    obtain ⟨hs, h2, rfl, h3⟩ := delLoop_counted _ _ h1
    exact ⟨hs, h2, rfl, fun hp => by rw [h3 hp]; simp⟩

theorem touchLoop_counted (ks : List Bytes) (d : Nat) {s s' : Spec.State} {out : List W} {n : Stat}
    (h : Runs env I oom e.now ((touchLoop e ks d).tally tickTOUCH) s (out, n) s') :
    ∃ hs, Looks I e.now ks s hs s' ∧ n = { cmdTouch := ks.length, touchHits := hs.sum, touchMisses := ks.length - hs.sum } ∧
      (e.proto = .resp → out = [.int (d + hs.sum : Nat)]) := by
  induction ks generalizing d s n with
  | nil =>
    unfold touchLoop at h
    split at h
    · rename_i hp; obtain ⟨_, rfl, rfl⟩ := tally_ret h; exact ⟨[], .nil _, rfl, fun hc => absurd (hp.symm.trans hc) (by decide)⟩
    · obtain ⟨rfl, rfl, rfl⟩ := tally_ret h; exact ⟨[], .nil _, rfl, fun hp => by rw [if_neg (by rw [hp]; decide)]; simp⟩
  | cons k ks ih =>
    unfold touchLoop at h
    obtain ⟨s1, r, s2, m, h1, h2, h3, rfl⟩ := tally_call h
    obtain ⟨hs, h5, rfl, h6⟩ := ih _ h3
    have hle := h5.sum_le
    have h4 : s2 = s1 ∧ (r.status = .found ↔ s1.dict.get e.now k ≠ none) := by
      cases hg : s1.dict.get e.now k with
      | none => simp [Spec.Step, hg] at h2; obtain ⟨rfl, rfl⟩ := h2; simp
      | some it => simp [Spec.Step, hg] at h2; obtain ⟨rfl, rfl⟩ := h2; simp
    obtain ⟨rfl, h4⟩ := h4
    by_cases hg : s2.dict.get e.now k = none
    · have hr : ¬ r.status = .found := by rw [h4]; simpa using hg
      refine ⟨0 :: hs, .cons ⟨h1, by simp [here, hg]⟩ h5, ?_, ?_⟩
      · simp [tickTOUCH, hr, Stat.add]; omega
      · intro hp; rw [h6 hp, if_neg hr]; simp
    · have hr := h4.2 hg
      refine ⟨1 :: hs, .cons ⟨h1, by simp [here, hg]⟩ h5, ?_, ?_⟩
      · simp [tickTOUCH, hr, Stat.add]; omega
      · intro hp; rw [h6 hp, if_pos hr]; simp; omega

/-- **C92, TOUCH.**  On every protocol, whatever others do in between: one more `cmd_touch` for each key, one more hit for each key that was there, one
more miss for each that was not; on a RESP connection the reply is the number of hits. -/
theorem touch_counted {name : Bytes} {ks : List Bytes} {s s' : Spec.State} {out : List W} {n : Stat} (hn : Spells name touchName) (hks : ks ≠ [])
    (h : Counts env I oom e pw other (name :: ks) s out n s') :
    ∃ hs, Looks I e.now ks s hs s' ∧ n = { cmdTouch := ks.length, touchHits := hs.sum, touchMisses := ks.length - hs.sum } ∧
      (e.proto = .resp → out = [.int n.touchHits]) := by
  rw [counts_iff hn (by decide : (_, Fn.cmdTOUCH) ∈ cmds)] at h
  obtain ⟨st', h⟩ := h
  have h1 := tally_keep (p := cmdTOUCH e (name :: ks)) h
  cases ks with
  | nil => exact absurd rfl hks
  | cons k ks =>
    unfold cmdTOUCH at h1
    obtain ⟨hs, h2, rfl, h3⟩ := touchLoop_counted _ _ h1
    exact ⟨hs, h2, rfl, fun hp => by rw [h3 hp]; simp⟩

/-! ### SET and SETEX -/

/-- No memory, as a number. -/
def short (out : List W) : Nat := if W.err .outOfMemory ∈ out then 1 else 0

theorem setEntry_noerr (name : Bytes) (x : Bytes × Spec.Item) (m : ErrMsg) : W.err m ∉ setEntry e name x := by
  unfold setEntry
  split <;> simp [pgRow, pgEnd]

theorem setReply_short (name : Bytes) (get : Bool) (r : Spec.Reply) :
    short (setReply e name get r) = if r.status = .nomem then 1 else 0 := by
  unfold short
  have hE : W.err .outOfMemory ∉ r.shown.flatMap (setEntry e name) := by
    simp only [List.mem_flatMap, not_exists, not_and]
    intro x _
    exact setEntry_noerr name x _
  unfold setReply
  by_cases hr : r.status = .nomem
  · simp [hr]
  · simp only [hr, if_false]
    rw [if_neg]
    split
    · split
      · split <;> simp [pgEnd]
      · exact hE
    · split <;> (try split) <;> (try split) <;> simp [pgEnd]

theorem execSET_counted {name key val : Bytes} {o : SetOpts} {s s' : Spec.State} {out : List W} {n : Stat}
    (h : Runs env I oom e.now ((execSET e name key val o).tally tickSET) s (out, n) s') :
    n = { cmdSet := 1, noMemory := short out } := by
  unfold execSET at h
  obtain ⟨s1, r, s2, m, _, _, h3, rfl⟩ := tally_call h
  obtain ⟨rfl, rfl, rfl⟩ := tally_ret h3
  rw [setReply_short]
  simp only [tickSET]
  split <;> simp [Stat.add]

/-- **C92, SET and SETEX.**  On every protocol: either the command line is refused, then nothing is counted and nothing changes, or one more `cmd_set`,
and `store_no_memory` is incremented exactly if that is the reply. -/
theorem set_counted {name low : Bytes} {as : List Bytes} {s s' : Spec.State} {out : List W} {n : Stat} (hn : Spells name low)
    (hl : low = [115, 101, 116] ∨ low = setexName) (h : Counts env I oom e pw other (name :: as) s out n s') :
    (n = {} ∧ s' = s ∧ ((∃ m, out = [.err m]) ∨ out = [.undefined] ∨ out = [.failed])) ∨ n = { cmdSet := 1, noMemory := short out } := by
  rcases hl with rfl | rfl
  · rw [counts_iff hn (by decide : (_, Fn.cmdSET) ∈ cmds)] at h
    obtain ⟨st', h⟩ := h
    have h1 := tally_keep (p := cmdSET e (name :: as)) h
    unfold cmdSET at h1
    split at h1
    · split at h1
      · obtain ⟨rfl, rfl, rfl⟩ := tally_ret h1; exact Or.inl ⟨rfl, rfl, Or.inl ⟨_, rfl⟩⟩
      · obtain ⟨rfl, rfl, rfl⟩ := tally_ret h1; exact Or.inl ⟨rfl, rfl, Or.inr (Or.inl rfl)⟩
      · split at h1
        · obtain ⟨rfl, rfl, rfl⟩ := tally_ret h1; exact Or.inl ⟨rfl, rfl, Or.inr (Or.inr rfl)⟩
        · split at h1
          · obtain ⟨rfl, rfl, rfl⟩ := tally_ret h1; exact Or.inl ⟨rfl, rfl, Or.inl ⟨_, rfl⟩⟩
          · split at h1
            · obtain ⟨rfl, rfl, rfl⟩ := tally_ret h1; exact Or.inl ⟨rfl, rfl, Or.inl ⟨_, rfl⟩⟩
            · exact Or.inr (execSET_counted h1)
    · obtain ⟨rfl, rfl, rfl⟩ := tally_ret h1; exact Or.inl ⟨rfl, rfl, Or.inl ⟨_, rfl⟩⟩
  · rw [counts_iff hn (by decide : (_, Fn.cmdSETEX) ∈ cmds)] at h
    obtain ⟨st', h⟩ := h
    have h1 := tally_keep (p := cmdSETEX e (name :: as)) h
    unfold cmdSETEX at h1
    split at h1
    · split at h1
      · obtain ⟨rfl, rfl, rfl⟩ := tally_ret h1; exact Or.inl ⟨rfl, rfl, Or.inl ⟨_, rfl⟩⟩
      · split at h1
        · obtain ⟨rfl, rfl, rfl⟩ := tally_ret h1; exact Or.inl ⟨rfl, rfl, Or.inl ⟨_, rfl⟩⟩
        · split at h1
          · obtain ⟨rfl, rfl, rfl⟩ := tally_ret h1; exact Or.inl ⟨rfl, rfl, Or.inr (Or.inl rfl)⟩
          · exact Or.inr (execSET_counted h1)
    · obtain ⟨rfl, rfl, rfl⟩ := tally_ret h1; exact Or.inl ⟨rfl, rfl, Or.inl ⟨_, rfl⟩⟩

/-! ### INCR and DECR -/

/-- A hit of INCR or DECR. -/
def hitStat (decr : Bool) : Stat := if decr then { decrHits := 1 } else { incrHits := 1 }
/-- A miss of INCR or DECR. -/
def missStat (decr : Bool) : Stat := if decr then { decrMisses := 1 } else { incrMisses := 1 }

/-- The reply of INCR or DECR is a number. -/
def isNumber : List W → Bool
  | [.int _] => true
  | [.uint _] => true
  | [.raw _, .raw [13, 10]] => true
  | [.pg (.desc _), .pg (.row _), .pg (.complete _), .pg .ready] => true
  | _ => false

theorem execIncr_counted {cmd key : Bytes} {δ : Int} {decr uns : Bool} {s s' : Spec.State} {out : List W} {n : Stat}
    (h : Runs env I oom e.now ((execIncr e cmd key δ decr uns).tally (tickINCR e decr)) s (out, n) s') :
    ∃ s1, I s s1 ∧
      ((s1.dict.get e.now key = none ∧ e.proto = .memcache ∧ n = missStat decr ∧ out = [.raw [78, 79, 84, 95, 70, 79, 85, 78, 68, 13, 10]]) ∨
       ((s1.dict.get e.now key ≠ none ∨ e.proto ≠ .memcache) ∧
        ((isNumber out = true ∧ n = hitStat decr) ∨ (out = [.err .outOfMemory] ∧ n = { noMemory := 1 }) ∨
         ((out = [.err .invalidInteger] ∨ out = [.err .overflow] ∨ out = [.raw nonNumericValue]) ∧ n = {})))) := by
  unfold execIncr at h
  obtain ⟨s1, r, s2, m, h1, h2, h3, rfl⟩ := tally_call h
  refine ⟨s1, h1, ?_⟩
  obtain ⟨rfl, h4⟩ := load_step h2
  -- the second half
  have store : ∀ {v : Int} {s0 s' : Spec.State} {m : Stat} {a : Spec.StoreArgs}, a.ask = none → a.nx = false → a.xx = false → a.casop = false →
      Runs env I oom e.now ((Prog.call (.store a) fun r =>
            if r.status = .nomem then Prog.ret [W.err .outOfMemory]
            else if r.status = .inserted ∨ r.status = .replaced then
              .ret (if e.proto = .memcache then [.raw (text64 uns v), .raw [13, 10]]
                else if e.proto = .postgres then pgRow valueCol (text64 uns v) cmd else [if uns then .uint v.toNat else .int v])
            else .ret [.failed]).tally (tickINCR e decr)) s0 (out, m) s' →
      (isNumber out = true ∧ m = hitStat decr) ∨ (out = [.err .outOfMemory] ∧ m = { noMemory := 1 }) := by
    intro v s0 s' m a ha1 ha2 ha3 ha4 hr
    obtain ⟨t1, q, t2, m', _, hq, hr2, rfl⟩ := tally_call hr
    by_cases hn : q.status = .nomem
    · rw [if_pos hn] at hr2
      obtain ⟨rfl, rfl, rfl⟩ := tally_ret hr2
      right
      simp [tickINCR, hn, Stat.add]
    · have hs : q.status = .inserted ∨ q.status = .replaced := by
        unfold Spec.Step at hq
        simp only [ha1, ha2, ha3, ha4] at hq
        split at hq
        · rw [hq.1] at hn; simp at hn
        · rcases hq with ⟨_, hq, _⟩ | hq
          · rw [hq] at hn; simp at hn
          · split at hq
            · simp at hq
              right
              rw [hq.1]
            · simp at hq
              left
              rw [hq.1]
      rw [if_neg hn, if_pos hs] at hr2
      obtain ⟨rfl, rfl, rfl⟩ := tally_ret hr2
      left
      refine ⟨?_, ?_⟩
      · split
        · rfl
        · split
          · rfl
          · split <;> rfl
      · simp only [tickINCR, hn, if_false, if_pos hs, hitStat]
        cases decr <;> rfl
  rcases h4 with ⟨hg, rfl⟩ | ⟨it, hg, rfl⟩
  · simp only [] at h3
    by_cases hm : e.proto = .memcache
    · left
      rw [if_pos ⟨by simp, hm⟩] at h3
      obtain ⟨rfl, rfl, rfl⟩ := tally_ret h3
      refine ⟨hg, hm, ?_, rfl⟩
      simp only [tickINCR, hm, missStat]
      cases decr <;> rfl
    · right
      refine ⟨Or.inr hm, ?_⟩
      rw [if_neg (by simp [hm] : ¬ (¬ (⟨.notfound, []⟩ : Spec.Reply).status = .found ∧ e.proto = .memcache))] at h3
      have hz : ∀ m : Stat, (tickINCR e decr (.load key false (some fun _ => none)) ⟨.notfound, []⟩).add m = m := by
        intro m
        simp [tickINCR, hm, Stat.add]
      rw [hz]
      by_cases hov : (!inRange uns (if decr = true then 0 - δ else 0 + δ)) = true ∧ e.proto ≠ .memcache
      · rw [if_pos hov] at h3
        obtain ⟨rfl, rfl, rfl⟩ := tally_ret h3
        exact Or.inr (Or.inr ⟨Or.inr (Or.inl rfl), rfl⟩)
      · rw [if_neg hov] at h3
        rcases store rfl rfl rfl rfl h3 with h | h
        · exact Or.inl h
        · exact Or.inr (Or.inl h)
  · right
    refine ⟨Or.inl (by rw [hg]; simp), ?_⟩
    have hz : ∀ m : Stat, (tickINCR e decr (.load key false (some fun _ => none)) ⟨.found, [(key, it)]⟩).add m = m := by
      intro m
      simp [tickINCR, Stat.add]
    rw [hz]
    simp only [] at h3
    cases hp : parse64 uns it.value with
    | none =>
      rw [hp] at h3
      simp only [] at h3
      split at h3
      · obtain ⟨rfl, rfl, rfl⟩ := tally_ret h3
        exact Or.inr (Or.inr ⟨Or.inr (Or.inr rfl), rfl⟩)
      · obtain ⟨rfl, rfl, rfl⟩ := tally_ret h3
        exact Or.inr (Or.inr ⟨Or.inl rfl, rfl⟩)
    | some x =>
      rw [hp] at h3
      simp only [not_true_eq_false, false_and, if_false] at h3
      by_cases hov : (!inRange uns (if decr = true then x - δ else x + δ)) = true ∧ e.proto ≠ .memcache
      · rw [if_pos hov] at h3
        obtain ⟨rfl, rfl, rfl⟩ := tally_ret h3
        exact Or.inr (Or.inr ⟨Or.inr (Or.inl rfl), rfl⟩)
      · rw [if_neg hov] at h3
        rcases store rfl rfl rfl rfl h3 with h | h
        · exact Or.inl h
        · exact Or.inr (Or.inl h)

theorem incr_counted {args : List Bytes} {decr uns : Bool} {key amount : Bytes} {s s' : Spec.State} {out : List W} {n : Stat}
    (ha : IncrArgs args decr uns key amount) (h : Counts env I oom e pw other args s out n s') :
    (s' = s ∧ n = {} ∧ out = [if e.proto = .memcache then .raw badDelta else .err .invalidInteger]) ∨
    ∃ δ cmd, Runs env I oom e.now ((execIncr e cmd key δ decr uns).tally (tickINCR e decr)) s (out, n) s' := by
  obtain ⟨name, ⟨rfl, hn⟩ | ⟨rfl, hn, rfl⟩⟩ := ha
  · have hl : (incrName decr uns true).map lower = incrName decr uns true := by cases decr <;> cases uns <;> decide
    have hu : decide (name.head?.map lower = some 117) = uns := by
      rw [head_spells hn hl]
      cases decr <;> cases uns <;> decide
    have h1 : Runs env I oom e.now ((cmdINCRDECRBY e [name, key, amount] decr).tally (tickINCR e decr)) s (out, n) s' := by
      cases decr
      · rw [counts_iff hn (by cases uns <;> decide : (_, Fn.cmdINCRBY) ∈ cmds)] at h
        obtain ⟨st', h⟩ := h
        exact tally_keep h
      · rw [counts_iff hn (by cases uns <;> decide : (_, Fn.cmdDECRBY) ∈ cmds)] at h
        obtain ⟨st', h⟩ := h
        exact tally_keep h
    unfold cmdINCRDECRBY at h1
    simp only [hu] at h1
    cases hp : parse64 uns amount with
    | none =>
      rw [hp] at h1
      simp only [] at h1
      left
      by_cases hm : e.proto = .memcache
      · rw [if_pos hm] at h1 ⊢
        obtain ⟨h3, h4, h5⟩ := tally_ret h1
        exact ⟨h5, h4, h3⟩
      · rw [if_neg hm] at h1 ⊢
        obtain ⟨h3, h4, h5⟩ := tally_ret h1
        exact ⟨h5, h4, h3⟩
    | some δ =>
      rw [hp] at h1
      exact Or.inr ⟨δ, _, h1⟩
  · have hl : (incrName decr uns false).map lower = incrName decr uns false := by cases decr <;> cases uns <;> decide
    have hu : decide (name.head?.map lower = some 117) = uns := by
      rw [head_spells hn hl]
      cases decr <;> cases uns <;> decide
    right
    refine ⟨1, if decr then [68, 69, 67, 82] else [73, 78, 67, 82], ?_⟩
    have h1 : Runs env I oom e.now ((cmdINCRDECR e [name, key] decr).tally (tickINCR e decr)) s (out, n) s' := by
      cases decr
      · rw [counts_iff hn (by cases uns <;> decide : (_, Fn.cmdINCR) ∈ cmds)] at h
        obtain ⟨st', h⟩ := h
        exact tally_keep h
      · rw [counts_iff hn (by cases uns <;> decide : (_, Fn.cmdDECR) ∈ cmds)] at h
        obtain ⟨st', h⟩ := h
        exact tally_keep h
    unfold cmdINCRDECR at h1
    simpa only [hu] using h1

/-- **C92, INCR and DECR** (`_partial`: for keys that are there, or memcache connections; false otherwise, see `incr_missing_is_hit`).  With an amount that
is a number: a miss is counted exactly if the key was not there, a hit exactly if the reply is the new number, `store_no_memory` exactly if that
is the reply, and nothing if the value is refused. -/
theorem incr_counted_partial {args : List Bytes} {decr uns : Bool} {key amount : Bytes} {s s' : Spec.State} {out : List W} {n : Stat}
    (ha : IncrArgs args decr uns key amount) (h : Counts env I oom e pw other args s out n s')
    (hthere : e.proto = .memcache ∨ ∀ s1, I s s1 → s1.dict.get e.now key ≠ none) :
    (s' = s ∧ n = {} ∧ out = [if e.proto = .memcache then .raw badDelta else .err .invalidInteger]) ∨
    ∃ s1, I s s1 ∧
      ((s1.dict.get e.now key = none ∧ n = missStat decr ∧ out = [.raw [78, 79, 84, 95, 70, 79, 85, 78, 68, 13, 10]]) ∨
       (s1.dict.get e.now key ≠ none ∧
        ((isNumber out = true ∧ n = hitStat decr) ∨ (out = [.err .outOfMemory] ∧ n = { noMemory := 1 }) ∨
         ((out = [.err .invalidInteger] ∨ out = [.err .overflow] ∨ out = [.raw nonNumericValue]) ∧ n = {})))) := by
  rcases incr_counted ha h with h1 | ⟨δ, cmd, h1⟩
  · exact Or.inl h1
  · right
    obtain ⟨s1, h2, h3 | ⟨h3, h4⟩⟩ := execIncr_counted h1
    · exact ⟨s1, h2, Or.inl ⟨h3.1, h3.2.2.1, h3.2.2.2⟩⟩
    · refine ⟨s1, h2, Or.inr ⟨?_, h4⟩⟩
      rcases hthere with ht | ht
      · exact h3.resolve_right (by simp [ht])
      · exact ht s1 h2

/-! ### AUTH -/

/-- **C92, AUTH.**  On a connection that is not logged in (with a password configured, not HTTP) every command line counts as one AUTH, and as an error
exactly if the connection is still not logged in afterwards. -/
theorem auth_counted {args : List Bytes} {s s' : Spec.State} {out : List W} {st' : ConnSt} {n : Stat} (hpw : pw ≠ []) (hp : e.proto ≠ .http)
    (h : Runs env I oom e.now (evcommandC e pw other args ⟨false⟩) s ((out, st'), n) s') :
    s' = s ∧ n = { authCmds := 1, authErrors := if st'.auth then 0 else 1 } := by
  unfold evcommandC at h
  simp only [hpw, ne_eq, not_false_eq_true, hp, and_self, if_true] at h
  obtain ⟨h1, rfl⟩ := runs_ret h
  simp only [Prod.mk.injEq] at h1
  obtain ⟨h1, rfl⟩ := h1
  refine ⟨rfl, ?_⟩
  unfold cmdAUTH at h1
  unfold tickAUTH
  split at h1
  · rename_i hc; rw [if_pos hc]; simp only [Prod.mk.injEq] at h1; rw [h1.2]; rfl
  · rename_i hc
    rw [if_neg hc]
    split at h1
    · rename_i hc; rw [if_pos hc]; simp only [Prod.mk.injEq] at h1; rw [h1.2]; rfl
    · rename_i hc
      rw [if_neg hc]
      split at h1
      · rename_i hc; rw [if_pos hc]; simp only [Prod.mk.injEq] at h1; rw [h1.2]; rfl
      · rename_i hc
        rw [if_neg hc]
        split at h1
        · simp only []
          split at h1
          · rename_i hc; rw [if_pos hc]; simp only [Prod.mk.injEq] at h1; rw [h1.2]; rfl
          · rename_i hc; rw [if_neg hc]; simp only [Prod.mk.injEq] at h1; rw [h1.2]; rfl
        · rename_i hne
          simp only [Prod.mk.injEq] at h1
          rw [h1.2]
          split
          · exact absurd rfl (hne _ _)
          · rfl

/-! ### Hits and misses add up to the gets -/

/-- Command lines one after the other, others may be active before, during and after each (`I`); with the sum of the increments. -/
inductive Session (env : Spec.Env) (I : Spec.State → Spec.State → Prop) (oom : Bool) (pw : Bytes) (other : Fn → Env → List Bytes → Prog (List W)) :
    List (Env × List Bytes) → Spec.State → Stat → Spec.State → Prop
  | nil (s : Spec.State) : Session env I oom pw other [] s {} s
  | cons {e : Env} {args : List Bytes} {l : List (Env × List Bytes)} {s s1 s2 s3 : Spec.State} {out : List W} {n m : Stat} :
      I s s1 → Counts env I oom e pw other args s1 out n s2 → Session env I oom pw other l s2 m s3 →
      Session env I oom pw other ((e, args) :: l) s (n.add m) s3

/-- Not TTL or PTTL, and GET with one key only. -/
def Plainly (args : List Bytes) : Prop :=
  ¬ Spells (args.headD []) [116, 116, 108] ∧ ¬ Spells (args.headD []) [112, 116, 116, 108] ∧
  (Spells (args.headD []) getName → args.length = 2)

/-- As many gets as hits and misses. -/
def Even (n : Stat) : Prop := n.cmdGet = n.getHits + n.getMisses

theorem even_zero : Even {} := rfl

theorem even_add (a b : Stat) (ha : Even a) (hb : Even b) : Even (a.add b) := by
  unfold Even at *
  simp only [Stat.add]
  omega

theorem even_counts {args : List Bytes} {s s' : Spec.State} {out : List W} {n : Stat} (hq : Plainly args)
    (h : Counts env I oom e pw other args s out n s') : Even n := by
  have h' := h
  obtain ⟨st', h⟩ := h
  unfold evcommandC at h
  simp only [Bool.true_eq_false, false_and, and_false, if_false] at h
  rcases command_lookup (args.headD []) with ⟨x, hx, hm, hs⟩ | ⟨hx, _⟩
  · rw [hx] at h
    simp only [] at h
    obtain ⟨low, fn⟩ := x
    simp only [] at h hs
    have flat : ∀ {p : Prog (List W × ConnSt)}, Runs env I oom e.now (p.map fun x => (x, ({} : Stat))) s ((out, st'), n) s' → Even n := by
      intro p h
      obtain ⟨a, _, h2⟩ := runs_map h
      simp only [Prod.mk.injEq] at h2
      rw [h2.2]; rfl
    unfold counted at h
    cases fn
    case cmdGET =>
      have hl : low = getName := by
        revert hm; unfold cmds; simp; intro h; rcases h with h | h; simp_all [getName]
      subst hl
      have h2 := hq.2.2 hs
      match args, h2, hs, h' with
      | [name, key], _, hs, h' =>
        rw [(get_counted hs h').2]
        unfold Even
        have := here_le s'.dict e.now key
        simp only []
        omega
    case cmdTTL =>
      have hl : low = [116, 116, 108] ∨ low = [112, 116, 116, 108] := by
        revert hm; unfold cmds; simp
      rcases hl with rfl | rfl
      · exact absurd hs hq.1
      · exact absurd hs hq.2.1
    case cmdSET => exact tally_inv Even even_zero even_add (fun c r => by unfold tickSET; split <;> (try split) <;> rfl) h
    case cmdSETEX => exact tally_inv Even even_zero even_add (fun c r => by unfold tickSET; split <;> (try split) <;> rfl) h
    case cmdMGET => exact tally_inv Even even_zero even_add (fun c r => by unfold tickMGET; split <;> rfl) h
    case cmdDEL => exact tally_inv Even even_zero even_add (fun c r => by unfold tickDEL; split <;> rfl) h
    case cmdTOUCH => exact tally_inv Even even_zero even_add (fun c r => by unfold tickTOUCH; split <;> rfl) h
    case cmdAUTH =>
      obtain ⟨a, _, h2⟩ := runs_map h
      simp only [Prod.mk.injEq] at h2
      rw [h2.2]
      unfold tickAUTH
      split
      · rfl
      · split
        · rfl
        · split
          · rfl
          · split
            · split <;> rfl
            · rfl
    case cmdINCRBY | cmdINCR | cmdDECRBY | cmdDECR =>
      exact tally_inv Even even_zero even_add (fun c r => by unfold tickINCR; split <;> (try split) <;> (try split) <;> rfl) h
    all_goals exact flat h
  · rw [hx] at h
    obtain ⟨h1, _⟩ := runs_ret h
    simp only [Prod.mk.injEq] at h1
    rw [h1.2]; rfl

/-- **C92, sums** (`_partial`: false with TTL, PTTL or GET with another number of arguments, see `gets_do_not_add_up`).  However many commands are
executed, on whatever protocols, and whatever others do: `cmd_get` grows by as much as `get_hits` and `get_misses` together. -/
theorem gets_add_up_partial {l : List (Env × List Bytes)} {s s' : Spec.State} {n : Stat} (hq : ∀ x ∈ l, Plainly x.2)
    (h : Session env I oom pw other l s n s') : n.cmdGet = n.getHits + n.getMisses := by
  have : Even n := by
    induction h with
    | nil => exact even_zero
    | cons _ h2 _ ih =>
      exact even_add _ _ (even_counts (hq _ List.mem_cons_self) h2) (ih fun x hx => hq x (by simp [hx]))
  exact this

/-! ### Where the counters are wrong -/

/-- The empty cache. -/
def bare : Spec.State := ⟨fun _ => none, fun _ => 0⟩

/-- **C92 is false for TTL, PTTL and wrong GETs.**  TTL of a missing key counts as a missed get without a get; GET without a key is a get with
neither hit nor miss. -/
theorem gets_do_not_add_up :
    Counts env alone oom ⟨5, 5, false, .resp⟩ pw other [[116, 116, 108], [107]] bare [.int (-2)] { getMisses := 1 } bare ∧
    Counts env alone oom ⟨5, 5, false, .resp⟩ pw other [[103, 101, 116]] bare [.err .wrongNumArgs] { cmdGet := 1 } bare := by
  constructor
  · rw [counts_iff spells_self (by decide : (_, Fn.cmdTTL) ∈ cmds)]
    exact ⟨⟨true⟩, Runs.call (s1 := bare) (r := ⟨.notfound, []⟩) (s2 := bare) rfl ⟨rfl, rfl⟩ (.ret _ _)⟩
  · rw [counts_iff spells_self (by decide : (_, Fn.cmdGET) ∈ cmds)]
    exact ⟨⟨true⟩, .ret _ _⟩

/-- **C92 is false for INCR of a missing key** except on memcache connections: it is counted as a hit. -/
theorem incr_missing_is_hit :
    ∃ s', Counts ⟨true, false, fun _ => 0⟩ alone oom ⟨5, 5, false, .resp⟩ pw other [[105, 110, 99, 114], [107]] bare [.int 1] { incrHits := 1 } s' := by
  refine ⟨⟨update bare.dict [107] (some ⟨text64 false (wrap false (0 + 1)), 0, 0, 1⟩), update bare.tok 0 1⟩,
    (counts_iff spells_self (by decide : (_, Fn.cmdINCR) ∈ cmds)).2 ⟨⟨true⟩, ?_⟩⟩
  refine Runs.call (s1 := bare) (r := ⟨.notfound, []⟩) (s2 := bare) rfl ⟨rfl, rfl⟩ ?_
  refine Runs.call (s1 := bare) (r := ⟨.inserted, []⟩)
    (s2 := ⟨update bare.dict [107] (some ⟨text64 false (wrap false (0 + 1)), 0, 0, 1⟩), update bare.tok 0 1⟩) rfl ?_ (.ret _ _)
  exact Or.inr ⟨rfl, Or.inl rfl⟩

/-- **C92 is false for APPEND without memory**: it is answered with that error, but `store_no_memory` stays the same. -/
theorem append_no_memory_not_counted :
    ∃ s', Counts ⟨true, false, fun _ => 0⟩ alone true ⟨5, 5, false, .resp⟩ pw other [[97, 112, 112, 101, 110, 100], [107], [118]] bare
      [.err .outOfMemory] {} s' := by
  refine ⟨⟨bare.dict, update bare.tok 0 1⟩, ?_⟩
  rw [counts_iff spells_self (by decide : (_, Fn.cmdAPPEND) ∈ cmds)]
  refine ⟨⟨true⟩, Runs.call (s1 := bare) (r := ⟨.notfound, []⟩) (s2 := bare) rfl ⟨rfl, rfl⟩ ?_⟩
  refine Runs.call (s1 := bare) (r := ⟨.nomem, []⟩) rfl ?_ (.ret _ _)
  exact Or.inl ⟨rfl, rfl, rfl⟩

/-! ### Concrete cases -/

/-- A cache with the key `k`. -/
def oneKey : Spec.State := ⟨fun k => if k = [107] then some ⟨[53], 0, 0, 1⟩ else none, fun _ => 1⟩

/-- Parameters for the cases: RESP at time 5. -/
def env5 : Spec.Env := ⟨true, false, fun _ => 0⟩

/-- `GeT k` with the key and without, a case of `get_counted`. -/
example : Counts env5 alone false ⟨5, 5, false, .resp⟩ pw other [[71, 101, 84], [107]] oneKey [.bulk [53]] { cmdGet := 1, getHits := 1 } oneKey ∧
    Counts env5 alone false ⟨5, 5, false, .resp⟩ pw other [[71, 101, 84], [106]] oneKey [.null] { cmdGet := 1, getMisses := 1 } oneKey := by
  have hn : Spells [71, 101, 84] getName := (spells_iff _ _ (by decide)).2 (by decide)
  constructor
  · rw [counts_iff hn (by decide : (_, Fn.cmdGET) ∈ cmds)]
    exact ⟨⟨true⟩, Runs.call (s1 := oneKey) (r := ⟨.found, [([107], ⟨[53], 0, 0, 1⟩)]⟩) (s2 := oneKey) rfl ⟨rfl, rfl⟩ (.ret _ _)⟩
  · rw [counts_iff hn (by decide : (_, Fn.cmdGET) ∈ cmds)]
    exact ⟨⟨true⟩, Runs.call (s1 := oneKey) (r := ⟨.notfound, []⟩) (s2 := oneKey) rfl ⟨rfl, rfl⟩ (.ret _ _)⟩

/-- `MGET k j` on a memcache connection, a case of `mget_counted`. -/
example : Counts env5 alone false ⟨5, 5, false, .memcache⟩ pw other [mgetName, [107], [106]] oneKey
    [.raw [86, 65, 76, 85, 69, 32, 107, 32, 48, 32, 49, 13, 10, 53, 13, 10], .raw [69, 78, 68, 13, 10]]
    { cmdGet := 2, getHits := 1, getMisses := 1 } oneKey := by
  rw [counts_iff spells_self (by decide : (_, Fn.cmdMGET) ∈ cmds)]
  exact ⟨⟨true⟩, Runs.call (s1 := oneKey) (r := ⟨.found, [([107], ⟨[53], 0, 0, 1⟩)]⟩) (s2 := oneKey) rfl ⟨rfl, rfl⟩
    (Runs.call (s1 := oneKey) (r := ⟨.notfound, []⟩) (s2 := oneKey) rfl ⟨rfl, rfl⟩ (.ret _ _))⟩

/-- `DEL k k`, a case of `del_counted`. -/
example : ∃ s', Counts env5 alone false ⟨5, 5, false, .resp⟩ pw other [delName, [107], [107]] oneKey [.int 1]
    { deleteHits := 1, deleteMisses := 1 } s' := by
  refine ⟨⟨update oneKey.dict [107] none, oneKey.tok⟩, ?_⟩
  rw [counts_iff spells_self (by decide : (_, Fn.cmdDEL) ∈ cmds)]
  refine ⟨⟨true⟩, Runs.call (s1 := oneKey) (r := ⟨.deleted, []⟩) (s2 := ⟨update oneKey.dict [107] none, oneKey.tok⟩) rfl ⟨rfl, rfl⟩
    (Runs.call (s1 := ⟨update oneKey.dict [107] none, oneKey.tok⟩) (r := ⟨.notfound, []⟩)
      (s2 := ⟨update oneKey.dict [107] none, oneKey.tok⟩) rfl ⟨rfl, rfl⟩ (.ret _ _))⟩

/-- `TOUCH k j`, a case of `touch_counted`. -/
example : Counts env5 alone false ⟨5, 5, false, .resp⟩ pw other [touchName, [107], [106]] oneKey [.int 1]
    { cmdTouch := 2, touchHits := 1, touchMisses := 1 } oneKey := by
  rw [counts_iff spells_self (by decide : (_, Fn.cmdTOUCH) ∈ cmds)]
  exact ⟨⟨true⟩, Runs.call (s1 := oneKey) (r := ⟨.found, []⟩) (s2 := oneKey) rfl ⟨rfl, rfl⟩
    (Runs.call (s1 := oneKey) (r := ⟨.notfound, []⟩) (s2 := oneKey) rfl ⟨rfl, rfl⟩ (.ret _ _))⟩

/-- `SET j 1` when memory is short, and SET without a value, cases of `set_counted`. -/
example : (∃ s', Counts env5 alone true ⟨5, 5, false, .resp⟩ pw other [[115, 101, 116], [106], [49]] oneKey [.err .outOfMemory]
      { cmdSet := 1, noMemory := 1 } s') ∧
    Counts env5 alone true ⟨5, 5, false, .resp⟩ pw other [[115, 101, 116], [106]] oneKey [.err .wrongNumArgs] {} oneKey := by
  constructor
  · refine ⟨⟨oneKey.dict, update oneKey.tok 0 2⟩, (counts_iff spells_self (by decide : (_, Fn.cmdSET) ∈ cmds)).2 ⟨⟨true⟩, ?_⟩⟩
    exact Runs.call (s1 := oneKey) (r := ⟨.nomem, []⟩) (s2 := ⟨oneKey.dict, update oneKey.tok 0 2⟩) rfl (Or.inl ⟨rfl, rfl, rfl⟩) (.ret _ _)
  · exact (counts_iff spells_self (by decide : (_, Fn.cmdSET) ∈ cmds)).2 ⟨⟨true⟩, .ret _ _⟩

/-- `incr k 1` and `decr j 1` on a memcache connection, cases of `incr_counted_partial`. -/
example : (∃ s', Counts env5 alone false ⟨5, 5, false, .memcache⟩ pw other [[105, 110, 99, 114], [107]] oneKey [.raw [54], .raw [13, 10]]
      { incrHits := 1 } s') ∧
    Counts env5 alone false ⟨5, 5, false, .memcache⟩ pw other [[100, 101, 99, 114], [106]] oneKey
      [.raw [78, 79, 84, 95, 70, 79, 85, 78, 68, 13, 10]] { decrMisses := 1 } oneKey ∧ IncrArgs [[100, 101, 99, 114], [106]] true false [106] [49] := by
  refine ⟨?_, ?_, ⟨_, Or.inr ⟨rfl, spells_self, rfl⟩⟩⟩
  · refine ⟨⟨update oneKey.dict [107] (some ⟨text64 false (wrap false (5 + 1)), 0, 0, 2⟩), update oneKey.tok 0 2⟩,
      (counts_iff spells_self (by decide : (_, Fn.cmdINCR) ∈ cmds)).2 ⟨⟨true⟩, ?_⟩⟩
    refine Runs.call (s1 := oneKey) (r := ⟨.found, [([107], ⟨[53], 0, 0, 1⟩)]⟩) (s2 := oneKey) rfl ⟨rfl, rfl⟩ ?_
    refine Runs.call (s1 := oneKey) (r := ⟨.replaced, []⟩)
      (s2 := ⟨update oneKey.dict [107] (some ⟨text64 false (wrap false (5 + 1)), 0, 0, 2⟩), update oneKey.tok 0 2⟩) rfl ?_ (.ret _ _)
    exact Or.inr ⟨rfl, rfl⟩
  · refine (counts_iff spells_self (by decide : (_, Fn.cmdDECR) ∈ cmds)).2 ⟨⟨true⟩, ?_⟩
    exact Runs.call (s1 := oneKey) (r := ⟨.notfound, []⟩) (s2 := oneKey) rfl ⟨rfl, rfl⟩ (.ret _ _)

/-- AUTH with the right and with a wrong password, cases of `auth_counted`. -/
example : Runs env5 alone false 5 (evcommandC ⟨5, 5, false, .resp⟩ [112] other [[65, 117, 116, 104], [112]] ⟨false⟩) oneKey
      (([.str [79, 75]], ⟨true⟩), { authCmds := 1 }) oneKey ∧
    Runs env5 alone false 5 (evcommandC ⟨5, 5, false, .resp⟩ [112] other [[65, 117, 116, 104], [113]] ⟨false⟩) oneKey
      (([.err .wrongPass], ⟨false⟩), { authCmds := 1, authErrors := 1 }) oneKey := ⟨.ret _ _, .ret _ _⟩

/-- `GET k`, `GET j`: a case of `gets_add_up_partial`. -/
example : (∀ x ∈ [((⟨5, 5, false, .resp⟩ : Env), [getName, [107]]), (⟨5, 5, false, .resp⟩, [getName, [106]])], Plainly x.2) ∧
    Session env5 alone false pw other [(⟨5, 5, false, .resp⟩, [getName, [107]]), (⟨5, 5, false, .resp⟩, [getName, [106]])] oneKey
      { cmdGet := 2, getHits := 1, getMisses := 1 } oneKey := by
  constructor
  · have hno : ∀ low : Bytes, low.length ≠ 3 ∨ low.head? ≠ some 103 → ¬ Spells getName low := by
      intro low h hs
      unfold Spells getName at hs
      have := hs.length_eq
      rcases h with h | h
      · simp at this; omega
      · cases hs with
        | cons h1 _ =>
          rcases h1 with rfl | ⟨i, hi, h2, h3⟩
          · simp at h
          · have : (103 : UInt8).toNat = 103 := rfl
            omega
    intro x hx
    simp only [List.mem_cons, List.not_mem_nil, or_false] at hx
    rcases hx with rfl | rfl
    · exact ⟨hno _ (by decide), hno _ (by decide), fun _ => rfl⟩
    · exact ⟨hno _ (by decide), hno _ (by decide), fun _ => rfl⟩
  · refine .cons (s1 := oneKey) (s2 := oneKey) (out := [.bulk [53]]) (n := { cmdGet := 1, getHits := 1 })
      (m := { cmdGet := 1, getMisses := 1 }) rfl
      ((counts_iff spells_self (by decide : (_, Fn.cmdGET) ∈ cmds)).2 ⟨⟨true⟩, ?_⟩)
      (.cons (s1 := oneKey) (s2 := oneKey) (out := [.null]) (n := { cmdGet := 1, getMisses := 1 }) (m := {}) rfl
        ((counts_iff spells_self (by decide : (_, Fn.cmdGET) ∈ cmds)).2 ⟨⟨true⟩, ?_⟩) (.nil _))
    · exact Runs.call (s1 := oneKey) (r := ⟨.found, [([107], ⟨[53], 0, 0, 1⟩)]⟩) (s2 := oneKey) rfl ⟨rfl, rfl⟩ (.ret _ _)
    · exact Runs.call (s1 := oneKey) (r := ⟨.notfound, []⟩) (s2 := oneKey) rfl ⟨rfl, rfl⟩ (.ret _ _)

end Verif.Cmd
