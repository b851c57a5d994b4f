import Mathlib.Tactic.Common
import Mathlib.Data.List.Dedup
import Verif.Cmd.Link

/-!
C49: MGET, DEL and EXISTS with several keys (RESP connections).
-/

namespace Verif.Cmd

open Verif.Num Verif.Resp Verif.Cache Function

/-- One command after the other, for each key. -/
inductive Each {α : Type} (one : Bytes → Spec.State → α → Spec.State → Prop) : List Bytes → Spec.State → List α → Spec.State → Prop
  | nil (s : Spec.State) : Each one [] s [] s
  | cons {k : Bytes} {ks : List Bytes} {s s1 s2 : Spec.State} {w : α} {ws : List α} :
      one k s w s1 → Each one ks s1 ws s2 → Each one (k :: ks) s (w :: ws) s2

def getName : Bytes := [103, 101, 116]
def mgetName : Bytes := [109, 103, 101, 116]
def delName : Bytes := [100, 101, 108]
def existsName : Bytes := [101, 120, 105, 115, 116, 115]

variable {env : Spec.Env} {I : Spec.State → Spec.State → Prop} {oom : Bool} {e : Env} {pw : Bytes}
  {other : Fn → Env → List Bytes → Prog (List W)}

theorem spells_self {low : Bytes} : Spells low low := List.forall₂_same.2 fun _ _ => Or.inl rfl

theorem executes_iff {name low : Bytes} {fn : Fn} {as : List Bytes} {p : Prog (List W)} (hs : Spells name low) (hm : (low, fn) ∈ cmds)
    (hc : call e pw other fn (name :: as) ⟨true⟩ = Prog.map (·, ⟨true⟩) p) {s s' : Spec.State} {out : List W} :
    Executes env I oom e pw other (name :: as) s out s' ↔ Runs env I oom e.now p s out s' := by
  unfold Executes
  rw [evcommand_known hs hm, hc]
  constructor
  · rintro ⟨st', h⟩
    obtain ⟨a, h1, h2⟩ := runs_map h
    simp only [Prod.mk.injEq] at h2
    rw [h2.1]; exact h1
  · intro h
    exact ⟨_, runs_map_of h⟩

/-- The value of a key, or null. -/
def valueOrNull (d : Spec.Dict) (now : Int) (k : Bytes) : W :=
  match d.get now k with
  | none => .null
  | some it => .bulk it.value

theorem get_single {name key : Bytes} {s s' : Spec.State} {out : List W} (hp : e.proto = .resp) (hn : Spells name getName) :
    Executes env I oom e pw other [name, key] s out s' ↔ I s s' ∧ out = [valueOrNull s'.dict e.now key] := by
  rw [executes_iff hn (by decide : (_, Fn.cmdGET) ∈ cmds) rfl]
  have hnp : ¬ e.proto = .postgres := by rw [hp]; decide
  unfold cmdGET
  simp only [if_neg hnp]
  constructor
  · intro h
    obtain ⟨s1, r, s2, h1, h2, h3⟩ := runs_call h
    obtain ⟨rfl, h4 | ⟨it, h4, rfl⟩⟩ := load_step h2
    · obtain ⟨h4, rfl⟩ := h4
      rw [if_pos rfl] at h3
      obtain ⟨h5, rfl⟩ := runs_ret h3
      refine ⟨h1, ?_⟩
      rw [h5, if_neg (by rw [hp]; decide)]
      unfold valueOrNull
      rw [h4]
    · rw [if_neg (by simp)] at h3
      obtain ⟨h5, rfl⟩ := runs_ret h3
      refine ⟨h1, ?_⟩
      rw [h5]
      simp [getEntry, hp, valueOrNull, h4]
  · rintro ⟨h1, rfl⟩
    cases hg : s'.dict.get e.now key with
    | none =>
      refine .call h1 (r := ⟨.notfound, []⟩) (s2 := s') ?_ ?_
      · simp [Spec.Step, hg]
      · rw [if_pos rfl, if_neg (by rw [hp]; decide)]
        simp only [valueOrNull, hg]
        exact .ret _ _
    | some it =>
      refine .call h1 (r := ⟨.found, [(key, it)]⟩) (s2 := s') ?_ ?_
      · simp [Spec.Step, hg]
      · rw [if_neg (by simp)]
        have h2 : List.flatMap (getEntry e Kind.get) [(key, it)] = [valueOrNull s'.dict e.now key] := by
          simp [valueOrNull, hg, getEntry, hp]
        rw [← h2]
        exact .ret _ _

theorem mgetLoop_each (hp : e.proto = .resp) (ks : List Bytes) (out0 : List W) {n : Nat} {s s' : Spec.State} {out : List W}
    (h : Runs env I oom e.now (mgetLoop e .mget ks out0 n) s out s') :
    ∃ ws, out = out0 ++ ws ∧ Each (fun k s w s' => Executes env I oom e pw other [getName, k] s [w] s') ks s ws s' := by
  have hm : e.proto ≠ .memcache := by rw [hp]; decide
  induction ks generalizing out0 s n with
  | nil =>
    unfold mgetLoop at h
    obtain ⟨h1, rfl⟩ := runs_ret h
    rw [if_neg hm, if_neg (by rw [hp]; decide)] at h1
    exact ⟨[], h1, .nil _⟩
  | cons k ks ih =>
    unfold mgetLoop at h
    obtain ⟨s1, r, s2, h1, h2, h3⟩ := runs_call h
    obtain ⟨rfl, h4⟩ := load_step h2
    have hadd : (if r.status = .notfound then (if e.proto = .resp then [W.null] else []) else r.shown.flatMap (getEntry e .mget)) =
        [valueOrNull s2.dict e.now k] := by
      rcases h4 with ⟨h4, rfl⟩ | ⟨it, h4, rfl⟩
      · rw [if_pos rfl, if_pos hp]; unfold valueOrNull; rw [h4]
      · rw [if_neg (by simp)]; simp [getEntry, hp, valueOrNull, h4]
    rw [hadd] at h3
    obtain ⟨ws, h5, h6⟩ := ih _ h3
    refine ⟨_ :: ws, by rw [h5]; simp, .cons ((get_single hp spells_self).2 ⟨h1, rfl⟩) h6⟩

/-- **C49, MGET.**  For all key lists and whatever other threads do in between (`I`): MGET k1 ... kn is GET k1, ..., GET kn, its reply is
the array of their replies, in order. -/
theorem mget_is_gets {name : Bytes} {ks : List Bytes} {s s' : Spec.State} {out : List W} (hp : e.proto = .resp) (hn : Spells name mgetName)
    (hks : ks ≠ []) (h : Executes env I oom e pw other (name :: ks) s out s') :
    ∃ ws, out = .arr ks.length :: ws ∧ Each (fun k s w s' => Executes env I oom e pw other [getName, k] s [w] s') ks s ws s' := by
  rw [executes_iff hn (by decide : (_, Fn.cmdMGET) ∈ cmds) rfl] at h
  cases ks with
  | nil => exact absurd rfl hks
  | cons k ks =>
    have : argeq name [109, 103, 101, 116, 115] = false := by
      have h1 := (spells_iff _ _ (by decide)).1 hn
      rw [Bool.eq_false_iff, ne_eq, argeq_iff, h1]
      decide
    unfold cmdMGET at h
    simp only [this, Bool.false_eq_true, if_false, if_pos hp] at h
    obtain ⟨ws, h1, h2⟩ := mgetLoop_each hp (k :: ks) _ h
    exact ⟨ws, by simpa using h1, h2⟩

/-- MGET without interference: the values in the order of the keys, null for missing ones, nothing changes. -/
theorem mget_alone {name : Bytes} {ks : List Bytes} {s s' : Spec.State} {out : List W} (hp : e.proto = .resp) (hn : Spells name mgetName)
    (hks : ks ≠ []) (h : Executes env alone oom e pw other (name :: ks) s out s') :
    s' = s ∧ out = .arr ks.length :: ks.map (valueOrNull s.dict e.now) := by
  obtain ⟨ws, h1, h2⟩ := mget_is_gets hp hn hks h
  have : ∀ {ks s ws s'}, Each (fun k s w s' => Executes env alone oom e pw other [getName, k] s [w] s') ks s ws s' →
      s' = s ∧ ws = ks.map (valueOrNull s.dict e.now) := by
    intro ks s ws s' h
    induction h with
    | nil s => exact ⟨rfl, rfl⟩
    | cons h1 _ ih =>
      obtain ⟨h2, h3⟩ := (get_single hp spells_self).1 h1
      unfold alone at h2
      subst h2
      simp only [List.cons.injEq, and_true] at h3
      exact ⟨ih.1, by rw [h3, ih.2]; rfl⟩
  obtain ⟨h3, h4⟩ := this h2
  exact ⟨h3, by rw [h1, h4]⟩

/-! ### DEL -/

theorem del_single {name key : Bytes} {s s' : Spec.State} {out : List W} (hp : e.proto = .resp) (hn : Spells name delName) :
    Executes env I oom e pw other [name, key] s out s' ↔ ∃ s1, I s s1 ∧
      ((s1.dict.get e.now key = none ∧ s' = s1 ∧ out = [.int 0]) ∨
       (s1.dict.get e.now key ≠ none ∧ s' = ⟨update s1.dict key none, s1.tok⟩ ∧ out = [.int 1])) := by
  rw [executes_iff hn (by decide : (_, Fn.cmdDEL) ∈ cmds) rfl]
  unfold cmdDEL delLoop delLoop
  simp only [hp]
  constructor
  · intro h
    obtain ⟨s1, r, s2, h1, h2, h3⟩ := runs_call h
    refine ⟨s1, h1, ?_⟩
    obtain ⟨h5, rfl⟩ := runs_ret h3
    cases hg : s1.dict.get e.now key with
    | none =>
      simp [Spec.Step, hg] at h2
      obtain ⟨rfl, rfl⟩ := h2
      exact Or.inl ⟨rfl, rfl, h5⟩
    | some it =>
      simp [Spec.Step, hg] at h2
      obtain ⟨rfl, rfl⟩ := h2
      exact Or.inr ⟨by simp, rfl, h5⟩
  · rintro ⟨s1, h1, ⟨hg, rfl, rfl⟩ | ⟨hg, rfl, rfl⟩⟩
    · refine .call h1 (r := ⟨.notfound, []⟩) (s2 := s') ?_ (.ret _ _)
      simp [Spec.Step, hg]
    · obtain ⟨it, hg⟩ := Option.ne_none_iff_exists'.1 hg
      refine .call h1 (r := ⟨.deleted, []⟩) ?_ (.ret _ _)
      simp [Spec.Step, hg]

theorem delLoop_each (hp : e.proto = .resp) (ks : List Bytes) (d : Nat) {s s' : Spec.State} {out : List W}
    (h : Runs env I oom e.now (delLoop e ks d) s out s') :
    ∃ ns : List Nat, out = [.int (d + ns.sum : Nat)] ∧
      Each (fun k s (n : Nat) s' => n ≤ 1 ∧ Executes env I oom e pw other [delName, k] s [.int n] s') ks s ns s' := by
  induction ks generalizing d s with
  | nil =>
    unfold delLoop at h
    simp only [hp] at h
    obtain ⟨h1, rfl⟩ := runs_ret h
    exact ⟨[], h1, .nil _⟩
  | cons k ks ih =>
    unfold delLoop at h
    obtain ⟨s1, r, s2, h1, h2, h3⟩ := runs_call h
    cases hg : s1.dict.get e.now k with
    | none =>
      simp [Spec.Step, hg] at h2
      obtain ⟨rfl, rfl⟩ := h2
      simp only [reduceCtorEq, if_false] at h3
      obtain ⟨ns, h5, h6⟩ := ih _ h3
      exact ⟨0 :: ns, by rw [h5]; simp, .cons ⟨by omega, (del_single hp spells_self).2 ⟨_, h1, Or.inl ⟨hg, rfl, rfl⟩⟩⟩ h6⟩
    | some it =>
      simp [Spec.Step, hg] at h2
      obtain ⟨rfl, rfl⟩ := h2
      simp only [if_true] at h3
      obtain ⟨ns, h5, h6⟩ := ih _ h3
      exact ⟨1 :: ns, by rw [h5]; simp; omega,
        .cons ⟨le_refl _, (del_single hp spells_self).2 ⟨_, h1, Or.inr ⟨by rw [hg]; simp, rfl, rfl⟩⟩⟩ h6⟩

/-- **C49, DEL.**  DEL k1 ... kn is DEL k1, ..., DEL kn; the reply is the sum of their replies. -/
theorem del_is_dels {name : Bytes} {ks : List Bytes} {s s' : Spec.State} {out : List W} (hp : e.proto = .resp) (hn : Spells name delName)
    (hks : ks ≠ []) (h : Executes env I oom e pw other (name :: ks) s out s') :
    ∃ ns : List Nat, out = [.int (ns.sum : Nat)] ∧
      Each (fun k s (n : Nat) s' => n ≤ 1 ∧ Executes env I oom e pw other [delName, k] s [.int n] s') ks s ns s' := by
  rw [executes_iff hn (by decide : (_, Fn.cmdDEL) ∈ cmds) rfl] at h
  cases ks with
  | nil => exact absurd rfl hks
  | cons k ks =>
    unfold cmdDEL at h
    obtain ⟨ns, h1, h2⟩ := delLoop_each hp (k :: ks) 0 h
    exact ⟨ns, by simpa using h1, h2⟩

/-- Number of different keys of the list that exist. -/
def countPresent (d : Spec.Dict) (now : Int) (ks : List Bytes) : Nat := (ks.dedup.filter fun k => (d.get now k).isSome).length

theorem get_update_none (d : Spec.Dict) (now : Int) (k k' : Bytes) :
    Spec.Dict.get (update d k none) now k' = if k' = k then none else d.get now k' := by
  unfold Spec.Dict.get
  by_cases h : k' = k
  · subst h; rw [update_self, if_pos rfl]; rfl
  · rw [update_of_ne h, if_neg h]

theorem filter_ne_length (l : List Bytes) (k : Bytes) (p : Bytes → Bool) (hd : l.Nodup) :
    (l.filter fun x => if x = k then false else p x).length + (if k ∈ l ∧ p k = true then 1 else 0) = (l.filter p).length := by
  induction l with
  | nil => simp
  | cons a l ih =>
    obtain ⟨hd1, hd2⟩ := List.nodup_cons.1 hd
    have ih := ih hd2
    by_cases ha : a = k
    · subst ha
      have h1 : ¬ (a ∈ l ∧ p a = true) := fun hc => hd1 hc.1
      rw [if_neg h1] at ih
      by_cases hp : p a = true
      · rw [if_pos ⟨by simp, hp⟩, List.filter_cons_of_neg (by simp), List.filter_cons_of_pos hp]
        simp only [List.length_cons]
        omega
      · rw [if_neg (by tauto), List.filter_cons_of_neg (by simp), List.filter_cons_of_neg hp]
        omega
    · have h1 : (k ∈ a :: l ∧ p k = true) ↔ (k ∈ l ∧ p k = true) := by
        simp [Ne.symm ha]
      simp only [h1]
      by_cases hp : p a = true
      · rw [List.filter_cons_of_pos (by simpa [ha] using hp), List.filter_cons_of_pos hp]
        simp only [List.length_cons]
        omega
      · rw [List.filter_cons_of_neg (by simpa [ha] using hp), List.filter_cons_of_neg hp]
        exact ih

theorem countPresent_cons (d : Spec.Dict) (now : Int) (k : Bytes) (ks : List Bytes) :
    countPresent d now (k :: ks) = (if (d.get now k).isSome then 1 else 0) + countPresent (update d k none) now ks := by
  unfold countPresent
  have hfun : (fun x => (Spec.Dict.get (update d k none) now x).isSome) = fun x => if x = k then false else (d.get now x).isSome := by
    funext x
    rw [get_update_none]
    split <;> rfl
  rw [hfun]
  have h1 := filter_ne_length ks.dedup k (fun x => (d.get now x).isSome) (List.nodup_dedup ks)
  simp only [List.mem_dedup] at h1
  by_cases hm : k ∈ ks
  · rw [List.dedup_cons_of_mem hm]
    by_cases hp : (d.get now k).isSome = true
    · rw [if_pos ⟨hm, hp⟩] at h1
      rw [if_pos hp]; omega
    · rw [if_neg (by tauto)] at h1
      rw [if_neg hp]; omega
  · rw [List.dedup_cons_of_notMem hm]
    rw [if_neg (by tauto)] at h1
    by_cases hp : (d.get now k).isSome = true
    · rw [List.filter_cons_of_pos (p := fun k => (d.get now k).isSome) hp, if_pos hp]; simp only [List.length_cons]; omega
    · rw [List.filter_cons_of_neg (p := fun k => (d.get now k).isSome) hp, if_neg hp]; omega

/-- DEL without interference: the reply is the number of different keys that existed; they are gone and the others are as before. -/
theorem del_alone {name : Bytes} {ks : List Bytes} {s s' : Spec.State} {out : List W} (hp : e.proto = .resp) (hn : Spells name delName)
    (hks : ks ≠ []) (h : Executes env alone oom e pw other (name :: ks) s out s') :
    out = [.int (countPresent s.dict e.now ks)] ∧
      (∀ k ∈ ks, s'.dict.get e.now k = none) ∧ ∀ k, k ∉ ks → s'.dict k = s.dict k := by
  obtain ⟨ns, h1, h2⟩ := del_is_dels hp hn hks h
  have key : ∀ {ks s ns s'}, Each (fun k s (n : Nat) s' => n ≤ 1 ∧ Executes env alone oom e pw other [delName, k] s [.int n] s') ks s ns s' →
      ns.sum = countPresent s.dict e.now ks ∧ (∀ k, s'.dict.get e.now k = if k ∈ ks then none else s.dict.get e.now k) ∧
      ∀ k, k ∉ ks → s'.dict k = s.dict k := by
    intro ks s ns s' h
    induction h with
    | nil s => exact ⟨rfl, by simp, by simp⟩
    | @cons k ks s s1 s2 n ns h1 _ ih =>
      obtain ⟨_, h1⟩ := h1
      obtain ⟨s1', h2, h3⟩ := (del_single hp spells_self).1 h1
      unfold alone at h2
      subst h2
      obtain ⟨ih1, ih2, ih3⟩ := ih
      rcases h3 with ⟨hg, hs, hw⟩ | ⟨hg, hs, hw⟩
      · subst hs
        simp only [List.cons.injEq, W.int.injEq, and_true] at hw
        have hcount : countPresent (update s1.dict k none) e.now ks = countPresent s1.dict e.now ks := by
          unfold countPresent
          congr 2
          funext x
          rw [get_update_none]
          split
          · rename_i hx; rw [hx, hg]
          · rfl
        refine ⟨?_, ?_, ?_⟩
        · rw [countPresent_cons, hg, hcount, List.sum_cons, ih1]
          simp
          omega
        · intro x
          rw [ih2 x]
          by_cases hx : x = k
          · subst hx; simp [hg]
          · simp [hx]
        · intro x hx
          exact ih3 x (fun hc => hx (by simp [hc]))
      · subst hs
        simp only [List.cons.injEq, W.int.injEq, and_true] at hw
        refine ⟨?_, ?_, ?_⟩
        · rw [countPresent_cons, if_pos (Option.isSome_iff_ne_none.2 hg), List.sum_cons, ih1]
          simp only []
          omega
        · intro x
          rw [ih2 x]
          simp only [get_update_none]
          by_cases hx : x = k
          · subst hx; simp
          · simp [hx]
        · intro x hx
          rw [ih3 x (fun hc => hx (by simp [hc]))]
          simp only []
          exact update_of_ne (fun hc => hx (by simp [hc])) _ _
  obtain ⟨h3, h4, h5⟩ := key h2
  refine ⟨by rw [h1, h3], ?_, h5⟩
  intro k hk
  rw [h4 k, if_pos hk]

/-! ### EXISTS -/

theorem exists_step {k : Bytes} {s s' : Spec.State} {r : Spec.Reply} (h : Spec.Step env oom e.now (.load k true none) s r s') :
    s' = s ∧ (r.status = .found ↔ s.dict.get e.now k ≠ none) := by
  cases hg : s.dict.get e.now k with
  | none => simp [Spec.Step, hg] at h; obtain ⟨rfl, rfl⟩ := h; simp
  | some it => simp [Spec.Step, hg] at h; obtain ⟨rfl, rfl⟩ := h; simp

/-- **C49, EXISTS.**  Whatever other threads do in between: the reply is the number of keys (repeated ones repeatedly) that exist, each at the moment of
its turn; EXISTS changes nothing itself (each state comes from the previous one by interference only). -/
theorem exists_counts {name : Bytes} {ks : List Bytes} {s s' : Spec.State} {out : List W} (hp : e.proto = .resp) (hn : Spells name existsName) (hks : ks ≠ [])
    (h : Executes env I oom e pw other (name :: ks) s out s') :
    ∃ ns : List Nat, out = [.int (ns.sum : Nat)] ∧
      Each (fun k s (n : Nat) s' => I s s' ∧ n = if s'.dict.get e.now k = none then 0 else 1) ks s ns s' := by
  rw [executes_iff hn (by decide : (_, Fn.cmdEXISTS) ∈ cmds) rfl] at h
  have loop : ∀ (ks : List Bytes) (d : Nat) {s s' : Spec.State} {out : List W}, Runs env I oom e.now (existsLoop e ks d) s out s' →
      ∃ ns : List Nat, out = [.int (d + ns.sum : Nat)] ∧
        Each (fun k s (n : Nat) s' => I s s' ∧ n = if s'.dict.get e.now k = none then 0 else 1) ks s ns s' := by
    intro ks
    induction ks with
    | nil =>
      intro d s s' out h
      unfold existsLoop at h
      obtain ⟨h1, rfl⟩ := runs_ret h
      rw [if_neg (by rw [hp]; decide)] at h1
      exact ⟨[], h1, .nil _⟩
    | cons k ks ih =>
      intro d s s' out h
      unfold existsLoop at h
      obtain ⟨s1, r, s2, h1, h2, h3⟩ := runs_call h
      obtain ⟨rfl, h4⟩ := exists_step h2
      by_cases hg : s2.dict.get e.now k = none
      · rw [if_neg (by rw [h4]; simpa using hg)] at h3
        obtain ⟨ns, h5, h6⟩ := ih _ h3
        exact ⟨0 :: ns, by rw [h5]; simp, .cons ⟨h1, by rw [if_pos hg]⟩ h6⟩
      · rw [if_pos (h4.2 hg)] at h3
        obtain ⟨ns, h5, h6⟩ := ih _ h3
        exact ⟨1 :: ns, by rw [h5]; simp; omega, .cons ⟨h1, by rw [if_neg hg]⟩ h6⟩
  cases ks with
  | nil => exact absurd rfl hks
  | cons k ks =>
    unfold cmdEXISTS at h
    obtain ⟨ns, h1, h2⟩ := loop (k :: ks) 0 h
    exact ⟨ns, by simpa using h1, h2⟩

/-- `DEL k k j` with `k` present only: a case of the theorems about DEL, with one repeated and one missing key. -/
example : ∃ s s', Executes ⟨true, false, shardIdx ctx4 4⟩ alone false (at_ .resp 1000) [] noOther
    [delName, [107], [107], [106]] s [.int 1] s' :=
  last_executes ctx4_valid (by decide : 0 < 4) [(at_ .resp 1000, [[115, 101, 116], [107], [97]])] (at_ .resp 1000, [delName, [107], [107], [106]])
    (by simp only [at_, IsI64]; decide) (by simp) (by decide +kernel)

example : ∃ s s', Executes ⟨true, false, shardIdx ctx4 4⟩ alone false (at_ .resp 1000) [] noOther
    [mgetName, [107], [106], [107]] s [.arr 3, .bulk [97], .null, .bulk [97]] s' :=
  last_executes ctx4_valid (by decide : 0 < 4) [(at_ .resp 1000, [[115, 101, 116], [107], [97]])] (at_ .resp 1000, [mgetName, [107], [106], [107]])
    (by simp only [at_, IsI64]; decide) (by simp) (by decide +kernel)

example : ∃ s s', Executes ⟨true, false, shardIdx ctx4 4⟩ alone false (at_ .resp 1000) [] noOther
    [existsName, [107], [106], [107]] s [.int 2] s' :=
  last_executes ctx4_valid (by decide : 0 < 4) [(at_ .resp 1000, [[115, 101, 116], [107], [97]])] (at_ .resp 1000, [existsName, [107], [106], [107]])
    (by simp only [at_, IsI64]; decide) (by simp) (by decide +kernel)

end Verif.Cmd
