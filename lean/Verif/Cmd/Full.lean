import Verif.Cmd.Stats

/-!
C95, at the level of the commands: what can be stored when the memory limit is exceeded (`lowmem`) and the server was started with `--evict=no`.
-/

namespace Verif.Cmd

open Verif.Num Verif.Resp Verif.Map Verif.Shard Verif.Cache Function

/-- All stores of a program pass the low memory flag on. -/
def Prog.Heeds {α : Type} : Prog α → Prop
  | .ret _ => True
  | .call c k => (match c with
      | .store a => a.lowmem = true
      | _ => True) ∧ ∀ r, (k r).Heeds

/-- No new keys. -/
def NoNew (s s' : Spec.State) : Prop := ∀ k, s.dict k = none → s'.dict k = none

theorem NoNew.refl (s : Spec.State) : NoNew s s := fun _ h => h

theorem NoNew.trans {a b c : Spec.State} (h : NoNew a b) (h' : NoNew b c) : NoNew a c := fun k hk => h' k (h k hk)

theorem get_some {d : Spec.Dict} {now : Int} {k : Bytes} {it : Spec.Item} (h : d.get now k = some it) : d k ≠ none := by
  intro hn
  unfold Spec.Dict.get at h
  rw [hn] at h
  simp at h

theorem step_noNew {env : Spec.Env} {oom : Bool} {now : Int} {c : Spec.Call} {s s' : Spec.State} {r : Spec.Reply} (hne : env.noevict = true)
    (hc : match c with
      | .store a => a.lowmem = true
      | _ => True) (h : Spec.Step env oom now c s r s') : NoNew s s' := by
  cases c with
  | load k nt cb =>
    simp only [Spec.Step] at h
    split at h
    · rw [h.2]; exact .refl _
    · rename_i it hg
      split at h
      · rw [h.2]; exact .refl _
      · split at h
        · rw [h.2]; exact .refl _
        · rcases h with ⟨_, rfl⟩ | ⟨_, _, rfl⟩
          · intro k' hk'
            simp only []
            rw [update_of_ne]
            · exact hk'
            · rintro rfl; exact get_some hg hk'
          · exact fun _ hk => hk
  | store a =>
    simp only [] at hc
    simp only [Spec.Step, hc, hne, Bool.and_self, if_true] at h
    rw [h.2]
    exact fun _ hk => hk
  | delete k ask =>
    simp only [Spec.Step] at h
    split at h
    · rw [h.2]; exact .refl _
    · split at h
      · rw [h.2]; exact .refl _
      · rw [h.2]
        intro k' hk'
        simp only []
        by_cases hk : k' = k
        · rw [hk, update_self]
        · rw [update_of_ne hk]; exact hk'
  | iter one cb =>
    simp only [Spec.Step] at h
    split at h
    · rw [h.2]; exact .refl _
    · rw [h.2.2.2]
      intro k hk
      simp only []
      split
      · rfl
      · exact hk
  | sweep one => simp only [Spec.Step] at h; rw [h.2]; exact .refl _
  | clear one =>
    simp only [Spec.Step] at h
    rw [h.2]
    intro k hk
    simp only []
    split
    · rfl
    · exact hk

theorem heeds_noNew {env : Spec.Env} {oom : Bool} {now : Int} {α : Type} {p : Prog α} {s s' : Spec.State} {a : α} (hne : env.noevict = true) (hp : p.Heeds)
    (h : Runs env alone oom now p s a s') : NoNew s s' := by
  induction h with
  | ret a s => exact .refl _
  | call h1 h2 _ ih =>
    rw [show _ = _ from h1] at h2
    exact (step_noNew hne hp.1 h2).trans (ih (hp.2 _))

theorem heeds_ite {α : Type} {q : Prop} [Decidable q] {p p' : Prog α} (h : p.Heeds) (h' : p'.Heeds) : (if q then p else p').Heeds := by
  split
  · exact h
  · exact h'

theorem heeds_map {α β : Type} (f : α → β) (p : Prog α) (h : p.Heeds) : (p.map f).Heeds := by
  induction p with
  | ret a => trivial
  | call c k ih => exact ⟨h.1, fun r => ih r (h.2 r)⟩

theorem heeds_SET {e : Env} (he : e.lowmem = true) (args : List Bytes) : (cmdSET e args).Heeds := by
  unfold cmdSET
  split
  · split
    · trivial
    · trivial
    · exact heeds_ite trivial (heeds_ite trivial (heeds_ite trivial ⟨he, fun _ => trivial⟩))
  · trivial

theorem heeds_SETEX {e : Env} (he : e.lowmem = true) (args : List Bytes) : (cmdSETEX e args).Heeds := by
  unfold cmdSETEX
  split
  · split
    · trivial
    · refine heeds_ite trivial ?_
      split
      · trivial
      · exact ⟨he, fun _ => trivial⟩
  · trivial

theorem heeds_mgetLoop (e : Env) (kind : Kind) (ks : List Bytes) (out : List W) (n : Nat) : (mgetLoop e kind ks out n).Heeds := by
  induction ks generalizing out n with
  | nil => trivial
  | cons k ks ih => exact ⟨trivial, fun _ => ih _ _⟩

theorem heeds_delLoop (e : Env) (ks : List Bytes) (d : Nat) : (delLoop e ks d).Heeds := by
  induction ks generalizing d with
  | nil => unfold delLoop; split <;> trivial
  | cons k ks ih => exact ⟨trivial, fun _ => ih _⟩

theorem heeds_existsLoop (e : Env) (ks : List Bytes) (d : Nat) : (existsLoop e ks d).Heeds := by
  induction ks generalizing d with
  | nil => trivial
  | cons k ks ih => exact ⟨trivial, fun _ => ih _⟩

theorem heeds_touchLoop (e : Env) (ks : List Bytes) (d : Nat) : (touchLoop e ks d).Heeds := by
  induction ks generalizing d with
  | nil => unfold touchLoop; split <;> trivial
  | cons k ks ih => exact ⟨trivial, fun _ => ih _⟩

/-- The commands for which the limit works. -/
def heeding : List Bytes :=
  [[115, 101, 116] /- set -/, [115, 101, 116, 101, 120] /- setex -/, [103, 101, 116] /- get -/, [109, 103, 101, 116] /- mget -/,
   [109, 103, 101, 116, 115] /- mgets -/, [100, 101, 108] /- del -/, [116, 116, 108] /- ttl -/, [112, 116, 116, 108] /- pttl -/,
   [101, 120, 112, 105, 114, 101] /- expire -/, [101, 120, 105, 115, 116, 115] /- exists -/, [116, 111, 117, 99, 104] /- touch -/]

theorem heeds_call {e : Env} (he : e.lowmem = true) (pw : Bytes) (other : Fn → Env → List Bytes → Prog (List W)) {low : Bytes} (hl : low ∈ heeding) :
    ∃ fn, (low, fn) ∈ cmds ∧ ∀ args st, (call e pw other fn args st).Heeds := by
  simp only [heeding, List.mem_cons, List.not_mem_nil, or_false] at hl
  rcases hl with rfl | rfl | rfl | rfl | rfl | rfl | rfl | rfl | rfl | rfl | rfl
  · exact ⟨.cmdSET, by decide, fun args st => heeds_map _ _ (heeds_SET he args)⟩
  · exact ⟨.cmdSETEX, by decide, fun args st => heeds_map _ _ (heeds_SETEX he args)⟩
  · refine ⟨.cmdGET, by decide, fun args st => heeds_map _ _ ?_⟩
    unfold cmdGET
    split
    · exact ⟨trivial, fun r => heeds_ite trivial (heeds_ite trivial trivial)⟩
    · trivial
  · refine ⟨.cmdMGET, by decide, fun args st => heeds_map _ _ ?_⟩
    unfold cmdMGET
    split
    · exact heeds_mgetLoop _ _ _ _ _
    · trivial
  · refine ⟨.cmdMGET, by decide, fun args st => heeds_map _ _ ?_⟩
    unfold cmdMGET
    split
    · exact heeds_mgetLoop _ _ _ _ _
    · trivial
  · refine ⟨.cmdDEL, by decide, fun args st => heeds_map _ _ ?_⟩
    unfold cmdDEL
    split
    · exact heeds_delLoop _ _ _
    · trivial
  · refine ⟨.cmdTTL, by decide, fun args st => heeds_map _ _ ?_⟩
    unfold cmdTTL
    split
    · exact ⟨trivial, fun r => heeds_ite trivial (heeds_ite trivial trivial)⟩
    · trivial
  · refine ⟨.cmdTTL, by decide, fun args st => heeds_map _ _ ?_⟩
    unfold cmdTTL
    split
    · exact ⟨trivial, fun r => heeds_ite trivial (heeds_ite trivial trivial)⟩
    · trivial
  · refine ⟨.cmdEXPIRE, by decide, fun args st => heeds_map _ _ ?_⟩
    unfold cmdEXPIRE
    split
    · split
      · trivial
      · split
        · trivial
        · exact ⟨trivial, fun r => heeds_ite trivial (heeds_ite trivial trivial)⟩
    · trivial
  · refine ⟨.cmdEXISTS, by decide, fun args st => heeds_map _ _ ?_⟩
    unfold cmdEXISTS
    split
    · exact heeds_existsLoop _ _ _
    · trivial
  · refine ⟨.cmdTOUCH, by decide, fun args st => heeds_map _ _ ?_⟩
    unfold cmdTOUCH
    split
    · exact heeds_touchLoop _ _ _
    · trivial

section
variable {env : Spec.Env} {oom : Bool} {e : Env} {pw : Bytes} {other : Fn → Env → List Bytes → Prog (List W)}

/-- **C95, partial.**  With `--evict=no` and too little memory, no command named here adds a key, whatever its arguments.
Missing: INCR, DECR, APPEND, PREPEND and their like, which do (`incr_adds_when_full`, `append_adds_when_full`). -/
theorem full_adds_nothing_partial (hne : env.noevict = true) (he : e.lowmem = true) {name low : Bytes} {as : List Bytes} (hs : Spells name low) (hl : low ∈ heeding)
    {s s' : Spec.State} {out : List W} {st' : ConnSt} (h : Runs env alone oom e.now (evcommand e pw other (name :: as) ⟨true⟩) s (out, st') s') :
    ∀ k, s.dict k = none → s'.dict k = none := by
  obtain ⟨fn, hm, hh⟩ := heeds_call he pw other hl
  rw [evcommand_known hs hm] at h
  exact heeds_noNew hne (hh _ _) h

/-- **C95, partial.**  With `--evict=no` and too little memory, SET with a key and a value is refused with "out of memory" and leaves the data as it was. -/
theorem full_set_refused_partial (hne : env.noevict = true) (he : e.lowmem = true) {name key val : Bytes} (hs : Spells name [115, 101, 116])
    {s s' : Spec.State} {out : List W} {st' : ConnSt} (h : Runs env alone oom e.now (evcommand e pw other [name, key, val] ⟨true⟩) s (out, st') s') :
    out = [.err .outOfMemory] ∧ s'.dict = s.dict := by
  rw [evcommand_known hs (by decide : (_, Fn.cmdSET) ∈ cmds)] at h
  obtain ⟨s1, r, s2, h1, h2, h3⟩ := runs_call h
  rw [show s1 = s from h1] at h2
  simp only [Spec.Step, he, hne, Bool.and_self, if_true] at h2
  obtain ⟨rfl, rfl⟩ := h2
  obtain ⟨h4, rfl⟩ := runs_ret h3
  refine ⟨?_, rfl⟩
  have := congrArg Prod.fst h4
  simpa [setReply] using this

/-- **C95 is false for INCR**: with `--evict=no` and too little memory it adds a key. -/
theorem incr_adds_when_full (now unix : Int) :
    ∃ s', Runs ⟨true, true, fun _ => 0⟩ alone oom now (evcommand ⟨now, unix, true, .resp⟩ pw other [[105, 110, 99, 114], [107]] ⟨true⟩) bare ([.int 1], ⟨true⟩) s' ∧ bare.dict [107] = none ∧
      (s'.dict [107]).map Spec.Item.value = some [49] := by
  refine ⟨⟨update bare.dict [107] (some ⟨text64 false (wrap false (0 + 1)), 0, 0, 1⟩), update bare.tok 0 1⟩, ?_, rfl, ?_⟩
  · rw [evcommand_known spells_self (by decide : (_, Fn.cmdINCR) ∈ cmds)]
    refine Runs.call (s1 := bare) (r := ⟨.notfound, []⟩) (s2 := bare) rfl ⟨rfl, rfl⟩ ?_
    refine Runs.call (s1 := bare) (r := ⟨.inserted, []⟩)
      (s2 := ⟨update bare.dict [107] (some ⟨text64 false (wrap false (0 + 1)), 0, 0, 1⟩), update bare.tok 0 1⟩) rfl ?_ (.ret _ _)
    exact Or.inr ⟨rfl, Or.inl rfl⟩
  · simp only [update_self]; decide +kernel

/-- **C95 is false for APPEND**: with `--evict=no` and too little memory it adds a value of any size. -/
theorem append_adds_when_full (now unix : Int) (val : Bytes) :
    ∃ s', Runs ⟨true, true, fun _ => 0⟩ alone oom now (evcommand ⟨now, unix, true, .resp⟩ pw other [[97, 112, 112, 101, 110, 100], [107], val] ⟨true⟩) bare ([.int val.length], ⟨true⟩) s' ∧
      bare.dict [107] = none ∧ (s'.dict [107]).map Spec.Item.value = some val := by
  refine ⟨⟨update bare.dict [107] (some ⟨val, 0, 0, 1⟩), update bare.tok 0 1⟩, ?_, rfl, ?_⟩
  · rw [evcommand_known spells_self (by decide : (_, Fn.cmdAPPEND) ∈ cmds)]
    refine Runs.call (s1 := bare) (r := ⟨.notfound, []⟩) (s2 := bare) rfl ⟨rfl, rfl⟩ ?_
    refine Runs.call (s1 := bare) (r := ⟨.inserted, []⟩)
      (s2 := ⟨update bare.dict [107] (some ⟨val, 0, 0, 1⟩), update bare.tok 0 1⟩) rfl ?_ (.ret _ _)
    exact Or.inr ⟨rfl, Or.inl rfl⟩
  · simp only [update_self]; rfl

/-- `SET j 1` and `DEL k` when memory is short: cases of the theorems above. -/
example : (∃ s', Runs ⟨true, true, fun _ => 0⟩ alone false 5 (evcommand ⟨5, 5, true, .resp⟩ pw other [[83, 69, 84], [106], [49]] ⟨true⟩) oneKey ([.err .outOfMemory], ⟨true⟩) s') ∧
    (∃ s', Runs ⟨true, true, fun _ => 0⟩ alone false 5 (evcommand ⟨5, 5, true, .resp⟩ pw other [delName, [107]] ⟨true⟩) oneKey ([.int 1], ⟨true⟩) s' ∧ s'.dict [107] = none) ∧
    Spells [83, 69, 84] [115, 101, 116] ∧ delName ∈ heeding := by
  have hs : Spells [83, 69, 84] [115, 101, 116] := (spells_iff _ _ (by decide)).2 (by decide)
  refine ⟨⟨⟨oneKey.dict, update oneKey.tok 0 2⟩, ?_⟩, ⟨⟨update oneKey.dict [107] none, oneKey.tok⟩, ?_, ?_⟩, hs, by decide⟩
  · rw [evcommand_known hs (by decide : (_, Fn.cmdSET) ∈ cmds)]
    exact Runs.call (s1 := oneKey) (r := ⟨.nomem, []⟩) (s2 := ⟨oneKey.dict, update oneKey.tok 0 2⟩) rfl ⟨rfl, rfl⟩ (.ret _ _)
  · rw [evcommand_known spells_self (by decide : (_, Fn.cmdDEL) ∈ cmds)]
    exact Runs.call (s1 := oneKey) (r := ⟨.deleted, []⟩) (s2 := ⟨update oneKey.dict [107] none, oneKey.tok⟩) rfl ⟨rfl, rfl⟩ (.ret _ _)
  · simp only [update_self]

end

end Verif.Cmd
