import Mathlib.Tactic.Common
import Verif.Many.Exact

/-!
C101: which calls the commands make.
-/

namespace Verif.Many

open Verif.Num Verif.Resp Verif.Cmd Verif.Cache Verif.Shard Verif.Map Verif.Wire Function

/-- At most one call. -/
def Single {α : Type} : Prog α → Prop
  | .ret _ => True
  | .call _ k => ∀ r, ∃ a, k r = .ret a

/-- Good calls on the key, of which only the last one may change something. -/
def Neat {α : Type} (key : Bytes) (p : Prog α) : Prop := On key p ∧ Goods p ∧ LooksFirst p

theorem On.map {α β : Type} {f : α → β} {key : Bytes} {p : Prog α} (h : On key p) : On key (p.map f) := by
  induction p with
  | ret a => trivial
  | call op k ih => exact ⟨h.1, fun r => ih r (h.2 r)⟩

theorem Goods.map {α β : Type} {f : α → β} {p : Prog α} (h : Goods p) : Goods (p.map f) := by
  induction p with
  | ret a => trivial
  | call op k ih => exact ⟨h.1, fun r => ih r (h.2 r)⟩

theorem Single.map {α β : Type} {f : α → β} {p : Prog α} (h : Single p) : Single (p.map f) := by
  cases p with
  | ret a => trivial
  | call op k =>
    intro r
    obtain ⟨a, ha⟩ := h r
    exact ⟨f a, by beta_reduce; rw [ha]; rfl⟩

theorem LooksFirst.map {α β : Type} {f : α → β} {p : Prog α} (h : LooksFirst p) : LooksFirst (p.map f) := by
  induction p with
  | ret a => trivial
  | call op k ih =>
    rcases h with h | ⟨h1, h2⟩
    · exact Or.inl (Single.map (p := .call op k) h)
    · exact Or.inr ⟨h1, fun r => ih r (h2 r)⟩

theorem Neat.map {α β : Type} {f : α → β} {key : Bytes} {p : Prog α} (h : Neat key p) : Neat key (p.map f) := ⟨h.1.map, h.2.1.map, h.2.2.map⟩

theorem batched_of {w low : Bytes} {fn : Fn} {as : List Bytes} (h : Spells w low) (hm : (low, fn) ∈ cmds) :
    batched (w :: as) = decide (fn = .cmdINCR ∨ fn = .cmdDECR ∨ fn = .cmdINCRBY ∨ fn = .cmdDECRBY ∨ fn = .cmdAPPEND ∨ fn = .cmdPREPEND) := by
  unfold batched
  rw [List.headD_cons, getCmd_of h hm]

theorem neat_ret {α : Type} (key : Bytes) (a : α) : Neat key (.ret a) := ⟨trivial, trivial, trivial⟩

theorem neat_ite {α : Type} {key : Bytes} {p : Prop} [Decidable p] {a b : Prog α} (ha : Neat key a) (hb : Neat key b) : Neat key (if p then a else b) := by
  split
  · exact ha
  · exact hb

theorem neat_last {α : Type} {key : Bytes} {op : Spec.Call} {k : Spec.Reply → Prog α} (hk : callKey op = some key) (hg : Good op) (h : ∀ r, ∃ a, k r = .ret a) :
    Neat key (.call op k) := by
  refine ⟨⟨hk, fun r => ?_⟩, ⟨hg, fun r => ?_⟩, Or.inl h⟩ <;>
  · obtain ⟨a, ha⟩ := h r
    rw [ha]
    trivial

theorem neat_look {α : Type} {key : Bytes} {nt : Bool} {k : Spec.Reply → Prog α} (h : ∀ r, Neat key (k r)) :
    Neat key (.call (.load key nt (some fun _ => none)) k) :=
  ⟨⟨rfl, fun r => (h r).1⟩, ⟨trivial, fun r => (h r).2.1⟩, Or.inr ⟨fun f it hf => by cases hf; rfl, fun r => (h r).2.2⟩⟩

theorem ite_ret {α : Type} {p : Prop} [Decidable p] {a b : Prog α} (ha : ∃ x, a = .ret x) (hb : ∃ x, b = .ret x) : ∃ x, (if p then a else b) = .ret x := by
  split
  · exact ha
  · exact hb

theorem good_store (key val : Bytes) (expires : Int) (cas flags : Nat) :
    Good (.store { key, val, expires, ttl := 0, cas, flags, keepttl := false, casop := false, nx := false, xx := false, lowmem := false, ask := none }) :=
  ⟨by unfold IsI64; constructor <;> simp, rfl⟩

theorem neat_incr (e : Env) (cmd key : Bytes) (delta : Int) (decr uns : Bool) : Neat key (execIncr e cmd key delta decr uns) := by
  refine neat_look fun r => ?_
  extract_lets found ctx
  clear_value ctx
  obtain ⟨_ | v, ex, fl, cas⟩ := ctx
  · exact neat_ite (neat_ret _ _) (neat_ret _ _)
  · exact neat_ite (neat_ret _ _) (neat_ite (neat_ret _ _) (neat_last rfl (good_store ..) fun r => ite_ret ⟨_, rfl⟩ (ite_ret ⟨_, rfl⟩ ⟨_, rfl⟩)))

theorem neat_append (e : Env) (w k v : Bytes) : Neat k (cmdAPPEND e [w, k, v]) := by
  unfold cmdAPPEND
  exact neat_look fun r => neat_ite (neat_ite (neat_ret _ _) (neat_last rfl (good_store ..) fun r => ite_ret ⟨_, rfl⟩ (ite_ret ⟨_, rfl⟩ ⟨_, rfl⟩)))
    (neat_ite (neat_ret _ _) (neat_last rfl (good_store ..) fun r => ite_ret ⟨_, rfl⟩ (ite_ret ⟨_, rfl⟩ ⟨_, rfl⟩)))

/-- At most one call, on the key. -/
def One {α : Type} (key : Bytes) (p : Prog α) : Prop := Neat key p ∧ Single p

theorem one_ret {α : Type} (key : Bytes) (a : α) : One key (.ret a) := ⟨neat_ret _ _, trivial⟩

theorem one_call {α : Type} {op : Spec.Call} {key : Bytes} {k : Spec.Reply → Prog α} (hk : callKey op = some key) (hg : Good op) (h : ∀ r, ∃ a, k r = .ret a) :
    One key (.call op k) := ⟨neat_last hk hg h, h⟩

theorem one_execSET {e : Env} (he : e.lowmem = false) (name key val : Bytes) (o : SetOpts) : One key (execSET e name key val o) :=
  one_call rfl ⟨by unfold IsI64; constructor <;> simp, he⟩ fun _ => ⟨_, rfl⟩

theorem one_set {e : Env} (he : e.lowmem = false) (w k v : Bytes) (opts : List Bytes) : One k (cmdSET e (w :: k :: v :: opts)) := by
  unfold cmdSET
  simp only []
  split
  · exact one_ret _ _
  · exact one_ret _ _
  · split
    · exact one_ret _ _
    · split
      · exact one_ret _ _
      · split
        · exact one_ret _ _
        · exact one_execSET he ..

theorem one_setex {e : Env} (he : e.lowmem = false) (w k t v : Bytes) : One k (cmdSETEX e [w, k, t, v]) := by
  unfold cmdSETEX
  simp only []
  split
  · exact one_ret _ _
  · split
    · exact one_ret _ _
    · split
      · exact one_ret _ _
      · exact one_execSET he ..

theorem one_expire (e : Env) (w k t : Bytes) : One k (cmdEXPIRE e [w, k, t]) := by
  unfold cmdEXPIRE
  simp only []
  split
  · exact one_ret _ _
  · split
    · exact one_ret _ _
    · exact one_call rfl trivial (fun r => ite_ret ⟨_, rfl⟩ (ite_ret ⟨_, rfl⟩ ⟨_, rfl⟩))

theorem one_get (e : Env) (w k : Bytes) : One k (cmdGET e [w, k]) :=
  one_call rfl trivial (fun r => ite_ret ⟨_, rfl⟩ (ite_ret ⟨_, rfl⟩ ⟨_, rfl⟩))

theorem one_ttl (e : Env) (w k : Bytes) : One k (cmdTTL e [w, k]) :=
  one_call rfl trivial (fun r => ite_ret ⟨_, rfl⟩ (ite_ret ⟨_, rfl⟩ ⟨_, rfl⟩))

/-- A command in execution: good calls; with a batch, on one key, and only the last one may change something. -/
def Shape {α : Type} (own : Bool) (p : Prog α) : Prop := Goods p ∧ (own = true → ∃ key, Neat key p)

/-- A command on one key, whose calls are made under one lock. -/
def Atomic {α : Type} (own : Bool) (key : Bytes) (p : Prog α) : Prop := Neat key p ∧ (own = true ∨ Single p)

/-- Not a command on several keys. -/
def Plain : Ask → Prop
  | .mget _ | .exist _ | .touch _ | .del _ => False
  | _ => True

/-- The calls of a command on one key. -/
theorem words_atomic {a : Ask} {args : List Bytes} (hw : Words a args) (h1 : Plain a) {e : Env} (he : e.lowmem = false) (pw : Bytes) (y : Sys) :
    ∃ key, Atomic (batched args) key (evcommand e pw (admin y) args ⟨true⟩) ∧
      (key ∈ keysOf a ∨ (keysOf a = [] ∧ ∃ x, evcommand e pw (admin y) args ⟨true⟩ = .ret x)) := by
  have one : ∀ {w low : Bytes} {fn : Fn} {as : List Bytes} {key : Bytes} (p : Prog (List W)), Spells w low → (low, fn) ∈ cmds →
      call e pw (admin y) fn (w :: as) ⟨true⟩ = p.map (·, ⟨true⟩) → One key p → (key ∈ keysOf a ∨ (keysOf a = [] ∧ ∃ x, p = .ret x)) →
      ∃ key, Atomic (batched (w :: as)) key (evcommand e pw (admin y) (w :: as) ⟨true⟩) ∧
        (key ∈ keysOf a ∨ (keysOf a = [] ∧ ∃ x, evcommand e pw (admin y) (w :: as) ⟨true⟩ = .ret x)) := by
    intro w low fn as key p hs hm hc hp hk
    rw [evcommand_known hs hm, hc]
    refine ⟨key, ⟨hp.1.map, Or.inr hp.2.map⟩, hk.imp id ?_⟩
    rintro ⟨h0, x, rfl⟩
    exact ⟨h0, _, rfl⟩
  have two : ∀ {w low : Bytes} {fn : Fn} {as : List Bytes} {key : Bytes} (p : Prog (List W)), Spells w low → (low, fn) ∈ cmds →
      call e pw (admin y) fn (w :: as) ⟨true⟩ = p.map (·, ⟨true⟩) →
      (fn = .cmdINCR ∨ fn = .cmdDECR ∨ fn = .cmdINCRBY ∨ fn = .cmdDECRBY ∨ fn = .cmdAPPEND ∨ fn = .cmdPREPEND) → Neat key p → key ∈ keysOf a →
      ∃ key, Atomic (batched (w :: as)) key (evcommand e pw (admin y) (w :: as) ⟨true⟩) ∧
        (key ∈ keysOf a ∨ (keysOf a = [] ∧ ∃ x, evcommand e pw (admin y) (w :: as) ⟨true⟩ = .ret x)) := by
    intro w low fn as key p hs hm hc hb hp hk
    rw [batched_of hs hm, evcommand_known hs hm, hc]
    exact ⟨key, ⟨hp.map, Or.inl (decide_eq_true hb)⟩, Or.inl hk⟩
  have by1 : ∀ decr w k t, Neat k (cmdINCRDECRBY e [w, k, t] decr) := by
    intro decr w k t
    unfold cmdINCRDECRBY
    dsimp only
    split
    · split <;> exact neat_ret _ _
    · exact neat_incr ..
  have by2 : ∀ decr w k, Neat k (cmdINCRDECR e [w, k] decr) := fun decr w k => neat_incr ..
  have here : ∀ {k : Bytes}, k ∈ [k] := fun {k} => List.mem_singleton.2 rfl
  cases hw with
  | ping hw => exact one (.ret _) hw (by decide : (pingName, Fn.cmdPING) ∈ cmds) rfl (one_ret [] _) (Or.inr ⟨rfl, _, rfl⟩)
  | echo hw =>
    rcases hw with hw | hw
    · exact one (.ret _) hw (by decide : (echoName, Fn.cmdECHO) ∈ cmds) rfl (one_ret [] _) (Or.inr ⟨rfl, _, rfl⟩)
    · exact one (.ret _) hw (by decide : (pingName, Fn.cmdPING) ∈ cmds) rfl (one_ret [] _) (Or.inr ⟨rfl, _, rfl⟩)
  | get hw => exact one _ hw (by decide : (_, Fn.cmdGET) ∈ cmds) rfl (one_get ..) (Or.inl here)
  | mget _ _ => exact absurd h1 id
  | exist _ _ => exact absurd h1 id
  | touch _ _ => exact absurd h1 id
  | @ttl ms _ _ hw => cases ms <;> exact one _ hw (by decide : (_, Fn.cmdTTL) ∈ cmds) rfl (one_ttl ..) (Or.inl here)
  | set hw _ _ _ => exact one _ hw (by decide : (_, Fn.cmdSET) ∈ cmds) rfl (one_set he ..) (Or.inl here)
  | setex hw _ _ => exact one _ hw (by decide : (_, Fn.cmdSETEX) ∈ cmds) rfl (one_setex he ..) (Or.inl here)
  | swap hw _ => exact one _ hw (by decide : (_, Fn.cmdSET) ∈ cmds) rfl (one_set he ..) (Or.inl here)
  | del _ _ => exact absurd h1 id
  | expire hw _ _ => exact one _ hw (by decide : (_, Fn.cmdEXPIRE) ∈ cmds) rfl (one_expire ..) (Or.inl here)
  | @join front _ _ _ hw =>
    cases front
    · exact two _ hw (by decide : (_, Fn.cmdAPPEND) ∈ cmds) rfl (by decide) (neat_append ..) here
    · exact two _ hw (by decide : (_, Fn.cmdPREPEND) ∈ cmds) rfl (by decide) (neat_append ..) here
  | incrby hw _ => exact two _ hw (by decide : (_, Fn.cmdINCRBY) ∈ cmds) rfl (by decide) (by1 ..) here
  | decrby hw _ _ => exact two _ hw (by decide : (_, Fn.cmdDECRBY) ∈ cmds) rfl (by decide) (by1 ..) here
  | incr hw => exact two _ hw (by decide : (_, Fn.cmdINCR) ∈ cmds) rfl (by decide) (by2 ..) here
  | decr hw => exact two _ hw (by decide : (_, Fn.cmdDECR) ∈ cmds) rfl (by decide) (by2 ..) here

/-! ### Several keys -/

/-- The commands on several keys: a loop. -/
theorem words_loop {a : Ask} {args : List Bytes} (hw : Words a args) (h1 : ¬ Plain a) {e : Env} (he : e.proto = .resp) (pw : Bytes) (y : Sys) :
    batched args = false ∧ ∃ p : Prog (List W), evcommand e pw (admin y) args ⟨true⟩ = p.map (·, ⟨true⟩) ∧
      ((∃ ks, ks ≠ [] ∧ ks.length < args.length ∧ a = .mget ks ∧ p = mgetLoop e .mget ks [.arr ks.length] 0) ∨
      (∃ ks, ks ≠ [] ∧ ks.length < args.length ∧ a = .exist ks ∧ p = existsLoop e ks 0) ∨
      (∃ ks, ks ≠ [] ∧ ks.length < args.length ∧ a = .touch ks ∧ p = touchLoop e ks 0) ∨
      (∃ ks, ks ≠ [] ∧ ks.length < args.length ∧ a = .del ks ∧ p = Cmd.delLoop e ks 0)) := by
  have key : ∀ {w low : Bytes} {fn : Fn} {as : List Bytes} (p : Prog (List W)), Spells w low → (low, fn) ∈ cmds →
      call e pw (admin y) fn (w :: as) ⟨true⟩ = p.map (·, ⟨true⟩) →
      ¬ (fn = .cmdINCR ∨ fn = .cmdDECR ∨ fn = .cmdINCRBY ∨ fn = .cmdDECRBY ∨ fn = .cmdAPPEND ∨ fn = .cmdPREPEND) →
      batched (w :: as) = false ∧ evcommand e pw (admin y) (w :: as) ⟨true⟩ = p.map (·, ⟨true⟩) := by
    intro w low fn as p hs hm hc hb
    rw [batched_of hs hm, evcommand_known hs hm, hc]
    exact ⟨decide_eq_false hb, rfl⟩
  cases hw with
  | @mget w ks hw hks =>
    obtain ⟨k1, k2⟩ := key (as := ks) _ hw (by decide : (_, Fn.cmdMGET) ∈ cmds) rfl (by decide)
    refine ⟨k1, _, k2, Or.inl ⟨ks, hks, by simp, rfl, ?_⟩⟩
    obtain ⟨k, ks, rfl⟩ := List.exists_cons_of_ne_nil hks
    have : argeq w [109, 103, 101, 116, 115] = false := by
      have h1 := (spells_iff _ _ (by decide)).1 hw
      rw [Bool.eq_false_iff, ne_eq, argeq_iff, h1]
      decide
    unfold cmdMGET
    simp only [this, Bool.false_eq_true, if_false, if_pos he]
  | @exist w ks hw hks =>
    obtain ⟨k1, k2⟩ := key (as := ks) _ hw (by decide : (_, Fn.cmdEXISTS) ∈ cmds) rfl (by decide)
    refine ⟨k1, _, k2, Or.inr (Or.inl ⟨ks, hks, by simp, rfl, ?_⟩)⟩
    obtain ⟨k, ks, rfl⟩ := List.exists_cons_of_ne_nil hks
    rfl
  | @touch w ks hw hks =>
    obtain ⟨k1, k2⟩ := key (as := ks) _ hw (by decide : (_, Fn.cmdTOUCH) ∈ cmds) rfl (by decide)
    refine ⟨k1, _, k2, Or.inr (Or.inr (Or.inl ⟨ks, hks, by simp, rfl, ?_⟩))⟩
    obtain ⟨k, ks, rfl⟩ := List.exists_cons_of_ne_nil hks
    rfl
  | @del w ks hw hks =>
    obtain ⟨k1, k2⟩ := key (as := ks) _ hw (by decide : (_, Fn.cmdDEL) ∈ cmds) rfl (by decide)
    refine ⟨k1, _, k2, Or.inr (Or.inr (Or.inr ⟨ks, hks, by simp, rfl, ?_⟩))⟩
    obtain ⟨k, ks, rfl⟩ := List.exists_cons_of_ne_nil hks
    rfl
  | _ => exact absurd trivial h1

/-- All commands have good calls. -/
theorem words_shape {a : Ask} {args : List Bytes} (hw : Words a args) {e : Env} (he : Fine e) (pw : Bytes) (y : Sys) :
    Shape (batched args) (evcommand e pw (admin y) args ⟨true⟩) := by
  by_cases h1 : Plain a
  · obtain ⟨key, h2, _⟩ := words_atomic hw h1 he.2.2.2 pw y
    exact ⟨h2.1.2.1, fun _ => ⟨key, h2.1⟩⟩
  · obtain ⟨h2, p, h3, h4⟩ := words_loop hw h1 he.1 pw y
    rw [h2, h3]
    refine ⟨Goods.map ?_, fun hc => by cases hc⟩
    rcases h4 with ⟨ks, _, _, _, rfl⟩ | ⟨ks, _, _, _, rfl⟩ | ⟨ks, _, _, _, rfl⟩ | ⟨ks, _, _, _, rfl⟩
    · have : ∀ (ks : List Bytes) out n, Goods (mgetLoop e .mget ks out n) := by
        intro ks
        induction ks with
        | nil => intro out n; trivial
        | cons k ks ih => exact fun out n => ⟨trivial, fun r => ih _ _⟩
      exact this ..
    · have : ∀ (ks : List Bytes) n, Goods (existsLoop e ks n) := by
        intro ks
        induction ks with
        | nil => intro n; trivial
        | cons k ks ih => exact fun n => ⟨trivial, fun r => ih _⟩
      exact this ..
    · have : ∀ (ks : List Bytes) n, Goods (touchLoop e ks n) := by
        intro ks
        induction ks with
        | nil => intro n; unfold touchLoop; split <;> trivial
        | cons k ks ih => exact fun n => ⟨trivial, fun r => ih _⟩
      exact this ..
    · have : ∀ (ks : List Bytes) n, Goods (Cmd.delLoop e ks n) := by
        intro ks
        induction ks with
        | nil => intro n; unfold Cmd.delLoop; split <;> trivial
        | cons k ks ih => exact fun n => ⟨rfl, fun r => ih _⟩
      exact this ..

end Verif.Many
