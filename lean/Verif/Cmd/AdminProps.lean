import Mathlib.Tactic.Common
import Verif.Cmd.Safe
import Verif.Cmd.Multi
import Verif.Glob.Props

/-!
C72: FLUSHALL removes every key.  C73: KEYS lists exactly the live keys that match.  C74: SWEEP changes nothing that is visible.
-/

namespace Verif.Cmd

open Verif.Num Verif.Resp Verif.Map Verif.Shard Verif.Cache

/-! ### The parts of the threads -/

theorem spans_cover (total procs r start : Nat) (hr : 0 < r) (hs : start + r * (total / procs) ≤ total) :
    ((spans total procs r start).flatMap fun x => (List.range x.2).map (x.1 + ·)) = (List.range (total - start)).map (start + ·) := by
  induction r generalizing start with
  | zero => omega
  | succ r ih =>
    unfold spans
    by_cases h0 : r = 0
    · subst h0
      simp [spans]
    · simp only [if_neg h0, List.flatMap_cons]
      have hm : (r + 1) * (total / procs) = r * (total / procs) + total / procs := by rw [Nat.add_mul, Nat.one_mul]
      rw [ih _ (by omega) (by omega)]
      have : total - start = total / procs + (total - (start + total / procs)) := by omega
      rw [this, List.range_add, List.map_append, List.map_map]
      congr 1
      have h2 : total / procs + (total - (start + total / procs)) - total / procs = total - (start + total / procs) := by omega
      apply List.map_congr_left
      intro x _
      simp only [Function.comp]
      omega

/-- The threads started by FLUSHALL FAST, SWEEP FAST and DEBUG POPULATE together visit each item exactly once, in order of their parts. -/
theorem visited_all (total : Nat) {procs : Nat} (hp : 0 < procs) : visited total procs = List.range total := by
  unfold visited
  rw [spans_cover total procs procs 0 hp (by rw [Nat.zero_add]; exact Nat.mul_div_le total procs)]
  simp

/-- Seven shards and three threads. -/
example : spans 7 3 3 0 = [(0, 2), (2, 2), (4, 3)] ∧ visited 7 3 = [0, 1, 2, 3, 4, 5, 6] := by decide

/-! ### FLUSHALL -/

/-- Others add or change only the keys in `K`. -/
def addsOnly (K : Bytes → Prop) (s s' : Spec.State) : Prop := ∀ k, ¬ K k → s'.dict k = s.dict k ∨ s'.dict k = none

/-- A system with shards and processors, whose threads run in any order. -/
def Sys.Ok (y : Sys) : Prop := 0 < y.nshards ∧ 0 < y.nprocs ∧ ∀ l, (y.order l).Perm l

theorem calls_clear {env : Spec.Env} {K : Bytes → Prop} {oom : Bool} {now : Int} {α : Type} (is : List Nat) {p : Prog α} {s s' : Spec.State} {a : α}
    (h : Runs env (addsOnly K) oom now (calls (is.map fun i => Spec.Call.clear (some (i : Int))) p) s a s')  :
    ∃ s1, Runs env (addsOnly K) oom now p s1 a s' ∧ ∀ k, ¬ K k → s1.dict k = none ∨ (env.grp k ∉ is ∧ s1.dict k = s.dict k) := by
  induction is generalizing s with
  | nil => exact ⟨s, h, fun k _ => Or.inr ⟨by simp, rfl⟩⟩
  | cons i is ih =>
    obtain ⟨s1, r, s2, h1, h2, h3⟩ := runs_call h
    obtain ⟨s3, h4, h5⟩ := ih h3
    refine ⟨s3, h4, fun k hk => ?_⟩
    obtain ⟨_, rfl⟩ := h2
    rcases h5 k hk with h6 | ⟨h6, h7⟩
    · exact Or.inl h6
    · by_cases hi : env.grp k = i
      · left
        rw [h7]
        exact if_pos (by intro j hj; cases hj; rw [hi])
      · have hna : ¬ Spec.addressed env.grp (some (i : Int)) k := fun hc => hi (by have := hc i rfl; omega)
        rcases h1 k hk with h8 | h8
        · right
          exact ⟨by simp [hi, h6], by rw [h7]; simp only [if_neg hna]; exact h8⟩
        · left
          rw [h7]
          simp only [if_neg hna]
          exact h8

theorem shards_complete {y : Sys} (hy : y.Ok) (fast : Bool) {i : Nat} (h : i < y.nshards) :
    i ∈ (if fast then shardOrder y else List.range y.nshards) := by
  split
  · unfold shardOrder
    rw [(hy.2.2 _).mem_iff, visited_all _ (by obtain ⟨a, b, _⟩ := hy; omega)]
    exact List.mem_range.2 h
  · exact List.mem_range.2 h

theorem flushWork_empties {env : Spec.Env} {K : Bytes → Prop} {oom : Bool} {now : Int} {α : Type} {y : Sys} (hy : y.Ok) (hg : ∀ k, env.grp k < y.nshards)
    {fast : Bool} {b a : α} {s s' : Spec.State} (h : Runs env (addsOnly K) oom now (flushWork y fast (.ret b)) s a s') :
    a = b ∧ ∀ k, ¬ K k → s'.dict k = none := by
  unfold flushWork at h
  obtain ⟨s1, h1, h2⟩ := calls_clear _ h
  obtain ⟨rfl, rfl⟩ := runs_ret h1
  refine ⟨rfl, fun k hk => ?_⟩
  rcases h2 k hk with h3 | ⟨h3, _⟩
  · exact h3
  · exact absurd (shards_complete hy fast (hg k)) h3

/-- Names of FLUSHALL. -/
def flushNames : List Bytes := [[102, 108, 117, 115, 104, 97, 108, 108], [102, 108, 117, 115, 104, 100, 98], [102, 108, 117, 115, 104]]

/-- Options of FLUSHALL. -/
inductive FlushOpt where
  | sync | async | fast
  | delay (secs : Nat)
deriving DecidableEq

/-- How an option is written. -/
def FlushOpt.Reads : FlushOpt → List Bytes → Prop
  | .sync, ws => ∃ a, ws = [a] ∧ Spells a [115, 121, 110, 99]
  | .async, ws => ∃ a, ws = [a] ∧ Spells a [97, 115, 121, 110, 99]
  | .fast, ws => ∃ a, ws = [a] ∧ Spells a [102, 97, 115, 116]
  | .delay n, ws => ∃ a t, ws = [a, t] ∧ Spells a [100, 101, 108, 97, 121] ∧ IntArg t (n : Int) ∧ n ≤ 31536000

/-- Whether an option asks to do it later (or not). -/
def FlushOpt.later? : FlushOpt → Option Bool
  | .sync => some false
  | .async => some true
  | .fast => none
  | .delay n => if n = 0 then none else some true

/-- Seconds that an option asks for. -/
def FlushOpt.delay? : FlushOpt → Option Nat
  | .delay n => some n
  | _ => none

/-- Whether it is done later; the last option that says something counts. -/
def laterOf (os : List FlushOpt) : Bool := ((os.filterMap FlushOpt.later?).getLast?).getD false
/-- After how many seconds. -/
def delayOf (os : List FlushOpt) : Nat := ((os.filterMap FlushOpt.delay?).getLast?).getD 0

theorem flushLoop_reads {o : FlushOpt} {ws : List Bytes} (h : o.Reads ws) (rest : List Bytes) (a f : Bool) (d : Int) :
    flushLoop (ws ++ rest) (a, f, d) = flushLoop rest (o.later?.getD a, decide (o = .fast) || f, (o.delay?.map Int.ofNat).getD d) := by
  cases o with
  | sync =>
    obtain ⟨w, rfl, hs⟩ := h
    simp only [List.cons_append, List.nil_append]
    rw [flushLoop.eq_def]
    simp only [argeq_spells (by decide) hs]
    simp [FlushOpt.later?, FlushOpt.delay?]
  | async =>
    obtain ⟨w, rfl, hs⟩ := h
    simp only [List.cons_append, List.nil_append]
    rw [flushLoop.eq_def]
    simp only [argeq_spells (by decide) hs]
    simp [FlushOpt.later?, FlushOpt.delay?]
  | fast =>
    obtain ⟨w, rfl, hs⟩ := h
    simp only [List.cons_append, List.nil_append]
    rw [flushLoop.eq_def]
    simp only [argeq_spells (by decide) hs]
    simp [FlushOpt.later?, FlushOpt.delay?]
  | delay n =>
    obtain ⟨w, t, rfl, hs, ht, hn⟩ := h
    have hp : parseI64 t = some (n : Int) := (parseI64_iff t n).2 (Or.inr ⟨ht.1, ht.2.1, ht.2.2⟩)
    simp only [List.cons_append, List.nil_append]
    rw [flushLoop]
    simp only [argeq_spells (by decide) hs, hp]
    have h1 : ¬ ((n : Int) < 0 ∨ (n : Int) > 31536000) := by omega
    by_cases h0 : n = 0
    · subst h0
      simp [FlushOpt.later?, FlushOpt.delay?]
    · have h2 : (n : Int) > 0 := by omega
      simp only [if_neg h1, if_pos h2, FlushOpt.later?, FlushOpt.delay?, if_neg h0]
      simp

theorem flushLoop_all {os : List FlushOpt} {wss : List (List Bytes)} (h : List.Forall₂ FlushOpt.Reads os wss) (a f : Bool) (d : Int) :
    flushLoop wss.flatten (a, f, d) = .ok (((os.filterMap FlushOpt.later?).getLast?).getD a, decide (.fast ∈ os) || f,
      (((os.filterMap FlushOpt.delay?).getLast?).map Int.ofNat).getD d) := by
  induction h generalizing a f d with
  | nil => rw [List.flatten_nil, flushLoop]; simp
  | @cons o ws os wss h1 _ ih =>
    rw [List.flatten_cons, flushLoop_reads h1, ih]
    congr 2
    · cases hl : o.later? with
      | none => simp [hl]
      | some b =>
        rw [List.filterMap_cons_some hl, List.getLast?_cons]
        simp
    · congr 1
      · by_cases hf : o = .fast
        · subst hf; simp
        · have : ¬ FlushOpt.fast = o := fun hc => hf hc.symm
          simp [hf, this]
      · cases hl : o.delay? with
        | none => simp [hl]
        | some b =>
          rw [List.filterMap_cons_some hl, List.getLast?_cons]
          cases (List.filterMap FlushOpt.delay? os).getLast? <;> simp

/-- What a detached thread does after its delay: `thflush0`, `/repo/src/cmds.c:765-774`; `thsweep0` (1188-1193); `thpurge` (1258-1262). -/
def runTask (y : Sys) : Task → Prog Unit
  | .flush _ fast => flushWork y fast (.ret ())
  | .sweep fast => sweepWork y fast (.ret ())
  | .purge => .ret ()

/-- Capital letters. -/
def upper (b : UInt8) : UInt8 := if 97 ≤ b ∧ b ≤ 122 then b - 32 else b

/-- The OK of a command: Postgres clients are told its name in capitals, and how it was done. -/
def okFor (e : Env) (low how : Bytes) : List W := okReply e (low.map upper ++ how)

theorem flushName_spells {name low : Bytes} {as : List Bytes} (hl : low ∈ flushNames) (hs : Spells name low) : flushName (name :: as) = low.map upper := by
  have hlow : low.map lower = low := by
    simp only [flushNames, List.mem_cons, List.not_mem_nil, or_false] at hl
    rcases hl with rfl | rfl | rfl <;> decide
  have heq := (spells_iff _ _ hlow).1 hs
  have hargs : ∀ x, argsEq (name :: as) x = decide (low = x) := by
    intro x
    unfold argsEq
    rw [Bool.eq_iff_iff, List.headD_cons, argeq_iff, heq, decide_eq_true_iff]
  unfold flushName
  simp only [hargs]
  simp only [flushNames, List.mem_cons, List.not_mem_nil, or_false] at hl
  rcases hl with rfl | rfl | rfl <;> decide

section
variable {env : Spec.Env} {K : Bytes → Prop} {oom : Bool} {e : Env} {pw : Bytes} {y : Sys} {s s' : Spec.State} {out : List W}

/-- **C72.**  FLUSHALL (FLUSHDB, FLUSH) with any options: without ASYNC and DELAY it is done when the client has its OK, however
many threads do it; otherwise a thread is started that waits for the delay asked for.  Every key that nobody else writes meanwhile is gone. -/
theorem flushall_exact {name low : Bytes} (hl : low ∈ flushNames) (hs : Spells name low) (hy : y.Ok) (hb : y.bgwork = true) (hg : ∀ k, env.grp k < y.nshards)
    {os : List FlushOpt} {wss : List (List Bytes)} (ho : List.Forall₂ FlushOpt.Reads os wss)
    (h : Executes env (addsOnly K) oom e pw (admin y) (name :: wss.flatten) s out s') :
    if laterOf os then out = okFor e low [32, 65, 83, 89, 78, 67] ++ [.spawn (.flush (delayOf os) (decide (.fast ∈ os)))] ∧ s' = s
    else out = okFor e low [32, 83, 89, 78, 67] ∧ ∀ k, ¬ K k → s'.dict k = none := by
  have hm : (low, Fn.cmdFLUSHALL) ∈ cmds := by
    simp only [flushNames, List.mem_cons, List.not_mem_nil, or_false] at hl
    rcases hl with rfl | rfl | rfl <;> decide
  rw [executes_iff hs hm (p := cmdFLUSHALL y e (name :: wss.flatten)) rfl] at h
  unfold cmdFLUSHALL at h
  simp only [List.tail_cons, flushLoop_all ho, flushName_spells hl hs] at h
  split
  · rename_i hc
    unfold laterOf at hc
    rw [hc] at h
    obtain ⟨rfl, rfl⟩ := runs_ret h
    refine ⟨?_, rfl⟩
    unfold delayOf okFor asyncTag
    cases (List.filterMap FlushOpt.delay? os).getLast? <;> simp
  · rename_i hc
    unfold laterOf at hc
    simp only [if_neg hc, hb, Bool.true_eq_false, if_false] at h
    exact flushWork_empties hy hg h

/-- **C72**, the thread: when it has ended, every key that nobody else wrote meanwhile is gone. -/
theorem flush_thread_empties (hy : y.Ok) (hg : ∀ k, env.grp k < y.nshards) {delay : Int} {fast : Bool} {now : Int}
    (h : Runs env (addsOnly K) oom now (runTask y (.flush delay fast)) s () s') : ∀ k, ¬ K k → s'.dict k = none :=
  (flushWork_empties hy hg h).2

end

theorem sys1_ok : sys1.Ok := ⟨by decide, by decide, fun l => .refl l⟩

/-- The state after a shard is emptied, when all keys are in shard 0. -/
def cleared (i : Nat) (s : Spec.State) : Spec.State := ⟨fun k => if Spec.addressed (fun _ => 0) (some (i : Int)) k then none else s.dict k, s.tok⟩

theorem runs_flush {α : Type} (I : Spec.State → Spec.State → Prop) (hI : ∀ x, I x x) (is : List Nat) (b : α) (s : Spec.State) :
    ∃ s', Runs ⟨true, false, fun _ => 0⟩ I false 5 (calls (is.map fun i => Spec.Call.clear (some (i : Int))) (.ret b)) s b s' := by
  induction is generalizing s with
  | nil => exact ⟨s, .ret _ _⟩
  | cons i is ih =>
    obtain ⟨s', h⟩ := ih (cleared i s)
    exact ⟨s', .call (hI s) ⟨rfl, rfl⟩ h⟩

/-- Hypotheses of `flushall_exact`: `FlushAll FAST sync` on four shards with two threads, in a state with a key, while others write `x`. -/
example : sys1.Ok ∧ List.Forall₂ FlushOpt.Reads [.fast, .sync] [[[70, 65, 83, 84]], [[115, 121, 110, 99]]] ∧
    ∃ s', Executes ⟨true, false, fun _ => 0⟩ (addsOnly (· = [120])) false (at_ .resp 5) [] (admin sys1)
      [[70, 108, 117, 115, 104, 65, 108, 108], [70, 65, 83, 84], [115, 121, 110, 99]] st1 [.str [79, 75]] s' := by
  refine ⟨sys1_ok, .cons ⟨_, rfl, (spells_iff _ _ (by decide)).2 (by decide)⟩ (.cons ⟨_, rfl, (spells_iff _ _ (by decide)).2 (by decide)⟩ .nil), ?_⟩
  obtain ⟨s', h⟩ := runs_flush (addsOnly (· = [120])) (fun _ _ _ => Or.inl rfl) [0, 1, 2, 3] [W.str [79, 75]] st1
  exact ⟨s', (executes_iff (low := [102, 108, 117, 115, 104, 97, 108, 108]) ((spells_iff _ _ (by decide)).2 (by decide)) (fn := .cmdFLUSHALL) (by decide)
    (p := cmdFLUSHALL sys1 (at_ .resp 5) [[70, 108, 117, 115, 104, 65, 108, 108], [70, 65, 83, 84], [115, 121, 110, 99]]) rfl).2 h⟩

/-- Hypotheses of `flush_thread_empties`: a thread started by FLUSHALL DELAY 5. -/
example : ∃ s', Runs ⟨true, false, fun _ => 0⟩ (addsOnly (· = [120])) false 5 (runTask sys1 (.flush 5 false)) st1 () s' :=
  runs_flush (addsOnly (· = [120])) (fun _ _ _ => Or.inl rfl) [0, 1, 2, 3] () st1

/-- **C72, negation** for the delay: with SYNC behind DELAY, keys are gone at once, whatever the delay. -/
theorem delay_before_sync_is_ignored {env : Spec.Env} {oom : Bool} {e : Env} {pw : Bytes} {y : Sys} (hy : y.Ok) (hb : y.bgwork = true)
    (hg : ∀ k, env.grp k < y.nshards) {s s' : Spec.State} {out : List W}
    (h : Executes env (addsOnly fun _ => False) oom e pw (admin y)
      [[70, 76, 85, 83, 72, 65, 76, 76], [68, 69, 76, 65, 89], [53], [83, 89, 78, 67]] s out s') :
    out = okFor e [102, 108, 117, 115, 104, 97, 108, 108] [32, 83, 89, 78, 67] ∧ ∀ k, s'.dict k = none := by
  have := flushall_exact (low := [102, 108, 117, 115, 104, 97, 108, 108]) (by decide) ((spells_iff _ _ (by decide)).2 (by decide)) hy hb hg
    (os := [.delay 5, .sync]) (wss := [[[68, 69, 76, 65, 89], [53]], [[83, 89, 78, 67]]])
    (.cons ⟨_, _, rfl, (spells_iff _ _ (by decide)).2 (by decide), ⟨by decide, by
        have := (parseI64_iff [53] 5).1 (by decide +kernel)
        rcases this with ⟨h, _⟩ | h
        · cases h
        · exact ⟨h.2.1, h.2.2⟩⟩, by decide⟩
      (.cons ⟨_, rfl, (spells_iff _ _ (by decide)).2 (by decide)⟩ .nil)) h
  rw [if_neg (by decide)] at this
  exact ⟨this.1, fun k => this.2 k id⟩

/-- Such an execution. -/
example : ∃ s', Executes ⟨true, false, fun _ => 0⟩ (addsOnly fun _ => False) false (at_ .resp 5) [] (admin sys1)
      [[70, 76, 85, 83, 72, 65, 76, 76], [68, 69, 76, 65, 89], [53], [83, 89, 78, 67]] st1 [.str [79, 75]] s' := by
  obtain ⟨s', h⟩ := runs_flush (addsOnly fun _ => False) (fun _ _ _ => Or.inl rfl) [0, 1, 2, 3] [W.str [79, 75]] st1
  refine ⟨s', (executes_iff (low := [102, 108, 117, 115, 104, 97, 108, 108]) ((spells_iff _ _ (by decide)).2 (by decide)) (fn := .cmdFLUSHALL) (by decide)
    (p := cmdFLUSHALL sys1 (at_ .resp 5) [[70, 76, 85, 83, 72, 65, 76, 76], [68, 69, 76, 65, 89], [53], [83, 89, 78, 67]]) rfl).2 ?_⟩
  unfold cmdFLUSHALL
  rw [show flushLoop (List.tail [[70, 76, 85, 83, 72, 65, 76, 76], [68, 69, 76, 65, 89], [53], [83, 89, 78, 67]]) (false, false, 0) = .ok (false, false, 5) from by
    decide +kernel]
  exact h

/-! ### KEYS -/

/-- The key is held, and has not expired. -/
def Live (now : Int) (k : Bytes) (s : Spec.State) : Prop := ∃ it, s.dict.get now k = some it

theorem iter_cont {env : Spec.Env} {oom : Bool} {now : Int} {one : Option Int} {s s' : Spec.State} {r : Spec.Reply}
    (h : Spec.Step env oom now (.iter one (some fun _ _ => .cont)) s r s') :
    s' = s ∧ ∀ k, k ∈ r.shown.map (·.1) ↔ Live now k s ∧ Spec.addressed env.grp one k := by
  have hd : ∀ l pre, Spec.asksDel (fun _ _ => .cont) pre l = [] := by
    intro l
    induction l with
    | nil => intro pre; rfl
    | cons x l ih => intro pre; simp only [Spec.asksDel, ih, List.nil_append]
  have hst : ∀ l pre, Spec.asksStop (fun _ _ => .cont) pre l = false := by
    intro l
    induction l with
    | nil => intro pre; rfl
    | cons x l ih => intro pre; simp only [Spec.asksStop, ih, Bool.or_false]
  obtain ⟨h1, h2, h3, h4⟩ := h
  rw [hst] at h2
  refine ⟨by rw [h4]; simp only [hd, List.not_mem_nil, if_false], fun k => ⟨fun hk => ?_, fun ⟨⟨it, hk⟩, ha⟩ => ?_⟩⟩
  · obtain ⟨x, hx, rfl⟩ := List.mem_map.1 hk
    exact ⟨⟨_, (h1 x hx).1⟩, (h1 x hx).2⟩
  · exact List.mem_map.2 ⟨_, h3 h2 k it hk ha, rfl⟩

theorem keysWork_run {env : Spec.Env} {I : Spec.State → Spec.State → Prop} {oom : Bool} {now : Int} {α : Type} {pattern : Bytes} {fin : List Bytes → Prog α}
    {is : List Nat} {acc : List Bytes} {s s' : Spec.State} {a : α} (h : Runs env I oom now (keysWork pattern fin is acc) s a s') :
    ∃ s1 keys, Runs env I oom now (fin (acc ++ keys)) s1 a s' ∧ (∀ k ∈ keys, keyWanted pattern k = true) ∧
      (∀ P : Spec.State → Prop, (∀ x x', I x x' → P x → P x') → P s → P s1) ∧
      (∀ k, (∀ x x', I x x' → Live now k x → Live now k x') → Live now k s → env.grp k ∈ is → keyWanted pattern k = true → k ∈ keys) ∧
      (∀ k, (∀ x x', I x x' → ¬ Live now k x → ¬ Live now k x') → ¬ Live now k s → k ∉ keys) := by
  induction is generalizing acc s with
  | nil => exact ⟨s, [], by rw [List.append_nil]; exact h, by simp, fun P _ h => h, by simp, by simp⟩
  | cons i is ih =>
    unfold keysWork at h
    obtain ⟨s1, r, s2, h1, h2, h3⟩ := runs_call h
    obtain ⟨rfl, h4⟩ := iter_cont h2
    obtain ⟨s3, keys, a1, a2, a3, a4, a5⟩ := ih h3
    refine ⟨s3, _, by rw [List.append_assoc] at a1; exact a1, ?_, fun P hP h => a3 P hP (hP _ _ h1 h), ?_, ?_⟩
    · intro k hk
      rcases List.mem_append.1 hk with hk | hk
      · exact (List.mem_filter.1 hk).2
      · exact a2 k hk
    · intro k hI hl hi hw
      have hl := hI _ _ h1 hl
      rcases List.mem_cons.1 hi with hi | hi
      · refine List.mem_append_left _ (List.mem_filter.2 ⟨(h4 k).2 ⟨hl, ?_⟩, hw⟩)
        intro j hj
        cases hj
        rw [hi]
      · exact List.mem_append_right _ (a4 k hI hl hi hw)
    · intro k hI hl hk
      have hl := hI _ _ h1 hl
      rcases List.mem_append.1 hk with hk | hk
      · exact hl ((h4 k).1 (List.mem_filter.1 hk).1).1
      · exact a5 k hI hl hk

/-- A pattern whose meaning the matcher gets right (C26): escapes are complete, no literal `?`, at most 127 groups of stars. -/
def GoodPattern (pattern : Bytes) (ts : List Glob.Tok) : Prop := Glob.toks pattern = some ts ∧ Glob.Tok.lit 63 ∉ ts ∧ Glob.starGroups ts ≤ 127

theorem keyWanted_iff {pattern : Bytes} {ts : List Glob.Tok} (h : GoodPattern pattern ts) (k : Bytes) : keyWanted pattern k = true ↔ Glob.Matches ts k := by
  unfold keyWanted
  by_cases hp : pattern = [42]
  · subst hp
    have : ts = [.star] := by
      have h1 := h.1
      rw [show Glob.toks [42] = some [.star] from rfl] at h1
      cases h1
      rfl
    subst this
    simp [Glob.matches_star_nil]
  · obtain ⟨b, hb, _, hm⟩ := Glob.glob_exact_partial pattern k
    simp only [hp, hb, decide_false, Bool.false_or, Option.some.injEq, decide_eq_true_eq]
    exact hm ts h.1 h.2.1 h.2.2

/-- A list of keys as a reply: an array, or for Postgres a table with one column and the number of rows. -/
def listed (e : Env) (keys : List Bytes) : List W :=
  if e.proto = .postgres then .pg (.desc [[107, 101, 121]]) :: ((keys.map fun k => .pg (.row [k])) ++
    [.pg (.complete ([75, 69, 89, 83, 32] ++ u64toa keys.length)), .pg .ready])
  else .arr keys.length :: keys.map .bulk

/-- **C73** (`_partial`: patterns as in `GoodPattern`; a key may be listed twice, C11).  While other connections go on, KEYS lists
every matching key that is live all the time and no key that is not live all the time; and no other kind of key. -/
theorem keys_exact_partial {env : Spec.Env} {I : Spec.State → Spec.State → Prop} {oom : Bool} {e : Env} {pw : Bytes} {y : Sys} {s s' : Spec.State} {out : List W}
    {name pattern : Bytes} (hs : Spells name [107, 101, 121, 115]) (hb : y.bgwork = true) (hg : ∀ k, env.grp k < y.nshards)
    {ts : List Glob.Tok} (hp : GoodPattern pattern ts) (h : Executes env I oom e pw (admin y) [name, pattern] s out s') :
    ∃ keys : List Bytes, out = listed e keys ∧
      (∀ k ∈ keys, Glob.Matches ts k) ∧
      (∀ k, (∀ x x', I x x' → Live e.now k x → Live e.now k x') → Live e.now k s → Glob.Matches ts k → k ∈ keys) ∧
      (∀ k, (∀ x x', I x x' → ¬ Live e.now k x → ¬ Live e.now k x') → ¬ Live e.now k s → k ∉ keys) := by
  rw [executes_iff hs (fn := .cmdKEYS) (by decide) (p := cmdKEYS y e [name, pattern]) rfl] at h
  unfold cmdKEYS at h
  simp only [hb, Bool.true_eq_false, if_false] at h
  obtain ⟨s1, keys, a1, a2, _, a4, a5⟩ := keysWork_run h
  obtain ⟨rfl, _⟩ := runs_ret a1
  rw [List.nil_append]
  exact ⟨keys, rfl, fun k hk => (keyWanted_iff hp k).1 (a2 k hk),
    fun k hI hl hm => a4 k hI hl (List.mem_range.2 (hg k)) ((keyWanted_iff hp k).2 hm), a5⟩

/-- **C73**, alone: KEYS lists exactly the matching live keys, and changes nothing. -/
theorem keys_alone_partial {env : Spec.Env} {oom : Bool} {e : Env} {pw : Bytes} {y : Sys} {s s' : Spec.State} {out : List W}
    {name pattern : Bytes} (hs : Spells name [107, 101, 121, 115]) (hb : y.bgwork = true) (hg : ∀ k, env.grp k < y.nshards)
    {ts : List Glob.Tok} (hp : GoodPattern pattern ts) (h : Executes env alone oom e pw (admin y) [name, pattern] s out s') :
    s' = s ∧ ∃ keys : List Bytes, out = listed e keys ∧ ∀ k, k ∈ keys ↔ Live e.now k s ∧ Glob.Matches ts k := by
  refine ⟨?_, ?_⟩
  · rw [executes_iff hs (fn := .cmdKEYS) (by decide) (p := cmdKEYS y e [name, pattern]) rfl] at h
    unfold cmdKEYS at h
    simp only [hb, Bool.true_eq_false, if_false] at h
    obtain ⟨s1, keys, a1, _, a3, _⟩ := keysWork_run h
    obtain ⟨_, rfl⟩ := runs_ret a1
    exact a3 (· = s) (fun x x' hx hs => by rw [← hs]; exact hx) rfl
  · obtain ⟨keys, h1, h2, h3, h4⟩ := keys_exact_partial hs hb hg hp h
    refine ⟨keys, h1, fun k => ⟨fun hk => ⟨?_, h2 k hk⟩, fun ⟨a, b⟩ => h3 k (fun x x' hx hl => by rw [show x' = x from hx]; exact hl) a b⟩⟩
    by_contra hl
    exact h4 k (fun x x' hx hl => by rw [show x' = x from hx]; exact hl) hl hk

/-- Hypotheses of `keys_exact_partial` and `keys_alone_partial`: `KEYS k*` in a state with the key `k`. -/
example : GoodPattern [107, 42] [.lit 107, .star] ∧
    Executes ⟨true, false, fun _ => 0⟩ alone false (at_ .resp 5) [] (admin sys1) [[75, 69, 89, 83], [107, 42]] st1 [.arr 1, .bulk [107]] st1 := by
  refine ⟨by unfold GoodPattern; decide, (executes_iff (low := [107, 101, 121, 115]) ((spells_iff _ _ (by decide)).2 (by decide)) (fn := .cmdKEYS) (by decide)
    (p := cmdKEYS sys1 (at_ .resp 5) [[75, 69, 89, 83], [107, 42]]) rfl).2 ?_⟩
  have hno : ∀ i : Nat, 0 < i → Spec.Step ⟨true, false, fun _ => 0⟩ false 5 (.iter (some (i : Int)) (some fun _ _ => .cont)) st1 ⟨.finished, []⟩ st1 := by
    intro i hi
    refine ⟨by simp, rfl, fun _ k it _ ha => ?_, rfl⟩
    have := ha i rfl
    simp only [] at this
    omega
  have h0 : Spec.Step ⟨true, false, fun _ => 0⟩ false 5 (.iter (some (0 : Int)) (some fun _ _ => .cont)) st1 ⟨.finished, [([107], ⟨[120], 0, 0, 1⟩)]⟩ st1 := by
    refine ⟨?_, rfl, ?_, rfl⟩
    · intro x hx
      rw [List.mem_singleton] at hx
      subst hx
      exact ⟨rfl, by intro i hi; cases hi; rfl⟩
    · intro _ k it hk _
      by_cases hc : k = [107]
      · subst hc
        rw [show st1.dict.get 5 [107] = some ⟨[120], 0, 0, 1⟩ from rfl] at hk
        cases hk
        simp
      · exfalso
        revert hk
        simp [Spec.Dict.get, st1, hc]
  refine .call (s1 := st1) (s2 := st1) rfl h0 ?_
  refine .call (s1 := st1) (s2 := st1) rfl (hno 1 (by decide)) ?_
  refine .call (s1 := st1) (s2 := st1) rfl (hno 2 (by decide)) ?_
  refine .call (s1 := st1) (s2 := st1) rfl (hno 3 (by decide)) ?_
  exact .ret _ _

/-! ### SWEEP -/

theorem calls_sweep {env : Spec.Env} {I : Spec.State → Spec.State → Prop} {oom : Bool} {now : Int} {α : Type} (is : List Nat) {b a : α} {s s' : Spec.State}
    (hr : ∀ x, I x x) (ht : ∀ x x' x'', I x x' → I x' x'' → I x x'')
    (h : Runs env I oom now (calls (is.map fun i => Spec.Call.sweep (some (i : Int))) (.ret b)) s a s') : a = b ∧ I s s' := by
  induction is generalizing s with
  | nil =>
    obtain ⟨rfl, rfl⟩ := runs_ret h
    exact ⟨rfl, hr _⟩
  | cons i is ih =>
    obtain ⟨s1, r, s2, h1, h2, h3⟩ := runs_call h
    obtain ⟨_, rfl⟩ := h2
    obtain ⟨rfl, h4⟩ := ih h3
    exact ⟨rfl, ht _ _ _ h1 h4⟩

/-- **C74.**  SWEEP (with or without FAST, in place) changes nothing that anybody can see: what happens to the cache's contents is what others do. -/
theorem sweep_invisible {env : Spec.Env} {I : Spec.State → Spec.State → Prop} (hr : ∀ x, I x x) (ht : ∀ x x' x'', I x x' → I x' x'' → I x x'')
    {oom : Bool} {e : Env} {pw : Bytes} {y : Sys} {s s' : Spec.State} {out : List W} {name : Bytes} {opts : List Bytes}
    (hs : Spells name [115, 119, 101, 101, 112]) (h : Executes env I oom e pw (admin y) (name :: opts) s out s') : I s s' := by
  rw [executes_iff hs (fn := .cmdSWEEP) (by decide) (p := cmdSWEEP y e (name :: opts)) rfl] at h
  unfold cmdSWEEP at h
  split at h
  · obtain ⟨_, rfl⟩ := runs_ret h; exact hr _
  · split at h
    · obtain ⟨_, rfl⟩ := runs_ret h; exact hr _
    · split at h
      · obtain ⟨_, rfl⟩ := runs_ret h; exact hr _
      · split at h
        · obtain ⟨_, rfl⟩ := runs_ret h; exact hr _
        · exact (calls_sweep _ hr ht h).2

/-- **C74**, the thread started by SWEEP ASYNC. -/
theorem sweep_thread_invisible {env : Spec.Env} {I : Spec.State → Spec.State → Prop} (hr : ∀ x, I x x) (ht : ∀ x x' x'', I x x' → I x' x'' → I x x'')
    {oom : Bool} {now : Int} {y : Sys} {s s' : Spec.State} {fast : Bool} (h : Runs env I oom now (runTask y (.sweep fast)) s () s') : I s s' :=
  (calls_sweep _ hr ht h).2

/-- Hypotheses of `sweep_invisible` and `sweep_thread_invisible`: `SWEEP`, while others add keys. -/
example : (∀ x, busy x x) ∧ (∀ x x' x'', busy x x' → busy x' x'' → busy x x'') ∧
    Executes ⟨true, false, fun _ => 0⟩ busy false (at_ .resp 5) [] (admin sys1) [[83, 87, 69, 69, 80]] st1 [.str [79, 75]] st1 ∧
    Runs ⟨true, false, fun _ => 0⟩ busy false 5 (runTask sys1 (.sweep false)) st1 () st1 := by
  refine ⟨fun _ => trivial, fun _ _ _ _ _ => trivial, (executes_iff (low := [115, 119, 101, 101, 112]) ((spells_iff _ _ (by decide)).2 (by decide))
    (fn := .cmdSWEEP) (by decide) (p := cmdSWEEP sys1 (at_ .resp 5) [[83, 87, 69, 69, 80]]) rfl).2 ?_, ?_⟩
  · exact .call (s1 := st1) (s2 := st1) trivial ⟨rfl, rfl⟩ (.call (s1 := st1) (s2 := st1) trivial ⟨rfl, rfl⟩ (.call (s1 := st1) (s2 := st1) trivial ⟨rfl, rfl⟩ (.call (s1 := st1) (s2 := st1) trivial ⟨rfl, rfl⟩ (.ret _ _))))
  · exact .call (s1 := st1) (s2 := st1) trivial ⟨rfl, rfl⟩ (.call (s1 := st1) (s2 := st1) trivial ⟨rfl, rfl⟩ (.call (s1 := st1) (s2 := st1) trivial ⟨rfl, rfl⟩ (.call (s1 := st1) (s2 := st1) trivial ⟨rfl, rfl⟩ (.ret _ _))))

/-- **C74, negation** for the documented form `SWEEP [ASYNC] [FAST]`: both options together are refused. -/
theorem sweep_async_fast_refused (env : Spec.Env) (I : Spec.State → Spec.State → Prop) (oom : Bool) (e : Env) (pw : Bytes) (y : Sys) (s : Spec.State) :
    Executes env I oom e pw (admin y) [[83, 87, 69, 69, 80], [65, 83, 89, 78, 67], [70, 65, 83, 84]] s [.err .wrongNumArgs] s :=
  (executes_iff (low := [115, 119, 101, 101, 112]) ((spells_iff _ _ (by decide)).2 (by decide)) (fn := .cmdSWEEP) (by decide)
    (p := cmdSWEEP y e [[83, 87, 69, 69, 80], [65, 83, 89, 78, 67], [70, 65, 83, 84]]) rfl).2 (.ret _ _)

end Verif.Cmd
