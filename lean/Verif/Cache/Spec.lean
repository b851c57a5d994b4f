import Verif.Basic
import Mathlib.Logic.Function.Basic

/-!
What a user expects of the cache: a dictionary whose items stop being visible at their expiry time.
Nothing here mentions hash tables, buckets, shards' contents or packed entries.  The only trace of
sharding is that CAS tokens are counted per group of keys (`grp`).
-/

namespace Verif.Cache.Spec

open Function

/-- What a user knows about a stored item. -/
structure Item where
  value : Bytes
  expires : Int
  flags : Nat
  cas : Nat
deriving DecidableEq, Repr

/-- An item is visible until its expiry time; expiry 0 means for ever. -/
def Item.visible (it : Item) (t : Int) : Bool := it.expires = 0 || t < it.expires

/-- Everything stored, including items that time has made invisible. -/
abbrev Dict := Bytes → Option Item

/-- What a lookup at time `t` gives. -/
def Dict.get (d : Dict) (t : Int) (k : Bytes) : Option Item := (d k).filter (·.visible t)

/-- Dictionary and the CAS tokens given out so far, per group of keys. -/
structure State where
  dict : Dict
  tok : Nat → Nat

inductive Status where
  | inserted | replaced | found | notfound | deleted | finished | canceled | nomem
deriving DecidableEq, Repr

/-- Reply of a call: status and what the callback was shown. -/
structure Reply where
  status : Status
  shown : List (Bytes × Item)
deriving DecidableEq

/-- New contents for an item, given by the callback of a load. -/
structure NewVal where
  value : Bytes
  flags : Nat
  expires : Int

structure StoreArgs where
  key : Bytes
  val : Bytes
  expires : Int
  ttl : Int
  cas : Nat
  flags : Nat
  keepttl : Bool
  casop : Bool
  nx : Bool
  xx : Bool
  lowmem : Bool
  /-- Is asked, when an item exists, whether to go on. -/
  ask : Option (Item → Bool)

inductive Answer where
  | cont | stop | delete | deleteStop
deriving DecidableEq

/-- The calls. -/
inductive Call where
  | load (key : Bytes) (notouch : Bool) (cb : Option (Item → Option NewVal))
  | store (a : StoreArgs)
  | delete (key : Bytes) (ask : Option (Item → Bool))
  | iter (one : Option Int) (cb : Option (List (Bytes × Item) → Bytes × Item → Answer))
  | sweep (one : Option Int)
  | clear (one : Option Int)

/-- Times that are not positive mean "never". -/
def normExp (x : Int) : Int := if x > 0 then x else 0

/-- Expiry asked for by the arguments: an absolute time, or now plus the time to live, but not beyond
the largest 64-bit time. -/
def StoreArgs.asked (a : StoreArgs) (now : Int) : Int :=
  if a.expires > 0 then a.expires else if a.ttl > 0 then min (now + a.ttl) (2 ^ 63 - 1) else 0

/-- Keys addressed by a call over all groups or one group. -/
def addressed (grp : Bytes → Nat) (one : Option Int) (k : Bytes) : Prop :=
  ∀ i, one = some i → (grp k : Int) = i

instance (grp : Bytes → Nat) (one : Option Int) (k : Bytes) : Decidable (addressed grp one k) :=
  match one with
  | none => .isTrue (by intro i h; simp at h)
  | some j => if h : (grp k : Int) = j then .isTrue (by intro i hi; simp at hi; rw [← hi, h])
      else .isFalse (fun hc => h (hc j rfl))

/-- Entries the callback asked to delete, given those shown before. -/
def asksDel (f : List (Bytes × Item) → Bytes × Item → Answer) (pre : List (Bytes × Item)) :
    List (Bytes × Item) → List Bytes
  | [] => []
  | x :: l => (match f pre x with
      | .delete | .deleteStop => [x.1]
      | _ => []) ++ asksDel f (pre ++ [x]) l

/-- Whether the callback ended the iteration. -/
def asksStop (f : List (Bytes × Item) → Bytes × Item → Answer) (pre : List (Bytes × Item)) :
    List (Bytes × Item) → Bool
  | [] => false
  | x :: l => (match f pre x with
      | .stop | .deleteStop => true
      | _ => false) || asksStop f (pre ++ [x]) l

/-- Parameters: whether the cache keeps CAS tokens, whether it may evict, and the groups. -/
structure Env where
  usecas : Bool
  noevict : Bool
  grp : Bytes → Nat

/-- Effect of a call at time `now` on the state, and its reply.  `oom` says that some allocation of this
call may fail. -/
def Step (env : Env) (oom : Bool) (now : Int) (call : Call) (s : State) (r : Reply) (s' : State) : Prop :=
  match call with
  | .load k _ cb =>
    match s.dict.get now k with
    | none => r = ⟨.notfound, []⟩ ∧ s' = s
    | some it =>
      match cb with
      | none => r = ⟨.found, []⟩ ∧ s' = s
      | some f =>
        match f it with
        | none => r = ⟨.found, [(k, it)]⟩ ∧ s' = s
        | some u =>
          let tok' := update s.tok (env.grp k) (s.tok (env.grp k) + 1)
          let new : Item := ⟨u.value, normExp u.expires, u.flags, if env.usecas then tok' (env.grp k) else 0⟩
          (r = ⟨.found, [(k, it)]⟩ ∧ s' = ⟨update s.dict k (some new), tok'⟩) ∨
          (oom = true ∧ r = ⟨.nomem, [(k, it)]⟩ ∧ s' = ⟨s.dict, tok'⟩)
  | .store a =>
    let tok' := update s.tok (env.grp a.key) (s.tok (env.grp a.key) + 1)
    if a.lowmem && env.noevict then r = ⟨.nomem, []⟩ ∧ s' = ⟨s.dict, tok'⟩
    else
      (oom = true ∧ r = ⟨.nomem, []⟩ ∧ s' = ⟨s.dict, tok'⟩) ∨
      match s.dict.get now a.key with
      | some it =>
        let exp := if a.keepttl then it.expires else a.asked now
        let new : Item := ⟨a.val, normExp exp, a.flags, if env.usecas then tok' (env.grp a.key) else 0⟩
        let shown := if a.ask.isSome then [(a.key, it)] else []
        if (if a.casop then env.usecas = false ∨ a.cas ≠ it.cas else a.nx = true) then
          r = ⟨.found, []⟩ ∧ s' = ⟨s.dict, tok'⟩
        else if a.ask.map (· it) = some false then r = ⟨.canceled, shown⟩ ∧ s' = ⟨s.dict, tok'⟩
        else r = ⟨.replaced, shown⟩ ∧ s' = ⟨update s.dict a.key (some new), tok'⟩
      | none =>
        let new : Item := ⟨a.val, normExp (a.asked now), a.flags, if env.usecas then tok' (env.grp a.key) else 0⟩
        if a.xx ∨ a.casop then r = ⟨.notfound, []⟩ ∧ s' = ⟨s.dict, tok'⟩
        else
          r = ⟨.inserted, []⟩ ∧
          (s' = ⟨update s.dict a.key (some new), tok'⟩ ∨
            -- under low memory one other item may go
            (a.lowmem = true ∧ ∃ v, v ≠ a.key ∧
              s' = ⟨update (update s.dict a.key (some new)) v none, tok'⟩))
  | .delete k ask =>
    match s.dict.get now k with
    | none => r = ⟨.notfound, []⟩ ∧ s' = s
    | some it =>
      let shown := if ask.isSome then [(k, it)] else []
      if ask.map (· it) = some false then r = ⟨.canceled, shown⟩ ∧ s' = s
      else r = ⟨.deleted, shown⟩ ∧ s' = ⟨update s.dict k none, s.tok⟩
  | .iter one cb =>
    match cb with
    | none => r = ⟨.finished, []⟩ ∧ s' = s
    | some f =>
      (∀ x ∈ r.shown, s.dict.get now x.1 = some x.2 ∧ addressed env.grp one x.1) ∧
      r.status = (if asksStop f [] r.shown then .canceled else .finished) ∧
      (r.status = .finished → ∀ k it, s.dict.get now k = some it → addressed env.grp one k → (k, it) ∈ r.shown) ∧
      s' = ⟨fun k => if k ∈ asksDel f [] r.shown then none else s.dict k, s.tok⟩
  | .sweep _ => r = ⟨.finished, []⟩ ∧ s' = s
  | .clear one => r = ⟨.finished, []⟩ ∧ s' = ⟨fun k => if addressed env.grp one k then none else s.dict k, s.tok⟩

/-- A sequence of calls. -/
structure Timed where
  now : Int
  oom : Bool
  call : Call

inductive Steps (env : Env) : List (Timed × Reply) → State → State → Prop
  | nil (s) : Steps env [] s s
  | cons {t r l s s1 s2} : Step env t.oom t.now t.call s r s1 → Steps env l s1 s2 → Steps env ((t, r) :: l) s s2

end Verif.Cache.Spec
