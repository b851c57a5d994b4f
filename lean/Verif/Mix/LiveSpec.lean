import Mathlib.Tactic.Common
import Verif.Many.LiveSpec
import Verif.Mix.Spec

/-!
C123: what SAVE, KEYS, sweeps and flushes do while clients of all protocols work.  `grp` tells the shard of a key.
-/

namespace Verif.Mix

open Verif.Resp Verif.Cmd Verif.Cache Function

/-- The store after a chore: what is gone by the clock of the chore is thrown away in its shard, or everything by a flush; no token is given again. -/
def choreDone (grp : Bytes → Nat) (x : Many.Chore) (m : Store) : Store :=
  ⟨fun k => if grp k = x.shard then (if x.kind = .clear then none else m.see x.now k) else m.has k, m.used⟩

/-- Something that happened: a part of a command, or a chore of thread `t`, with the store just before it. -/
inductive Did where
  | part (ev : Event)
  | chore (t : Nat) (x : Many.Chore) (before : Store)

/-- The thread. -/
def Did.who : Did → Nat
  | .part ev => ev.who
  | .chore t _ _ => t

/-- Whether it is a part of a command. -/
def Did.isPart : Did → Bool
  | .part _ => true
  | .chore _ _ _ => false

/-- The chore, if it is one of thread `t`. -/
def Did.choreOf (t : Nat) : Did → Option (Many.Chore × Store)
  | .part _ => none
  | .chore u x m => if u = t then some (x, m) else none

/-- Parts of commands, and chores, one after the other. -/
inductive LiveStory (ver : Bytes) (clock : Nat → Nat → Env) (asks : Nat → List Ask) (grp : Bytes → Nat) (m : Store) :
    List Did → (Nat → List Ans) → (Nat → List Ans) → Store → Prop
  | none : LiveStory ver clock asks grp m [] (fun _ => []) (fun _ => []) m
  | part {ds : List Did} {rs ps rs' ps' : Nat → List Ans} {ev : Event} : LiveStory ver clock asks grp m ds rs ps ev.before →
      Next ver clock asks rs ps ev rs' ps' → LiveStory ver clock asks grp m (ds ++ [.part ev]) rs' ps' ev.after
  | chore {ds : List Did} {rs ps : Nat → List Ans} {m1 : Store} {t : Nat} {x : Many.Chore} : LiveStory ver clock asks grp m ds rs ps m1 →
      LiveStory ver clock asks grp m (ds ++ [.chore t x m1]) rs ps (choreDone grp x m1)

/-- A list of entries is what the store has in the shard of a chore, at its time: exactly these keys with their values, flags, deadlines and tokens. -/
def ShardShown (grp : Bytes → Nat) (x : Many.Chore) (m : Store) (l : List (Bytes × Spec.Item)) : Prop :=
  ∀ k z, (∃ it, (k, it) ∈ l ∧ it.value = z.value ∧ it.flags = z.flags ∧ it.cas = z.cas ∧ (if it.expires = 0 then none else some it.expires) = z.upto) ↔
    grp k = x.shard ∧ m.see x.now k = some z

end Verif.Mix
