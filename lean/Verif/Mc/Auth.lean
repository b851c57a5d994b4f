import Mathlib.Tactic.Common
import Verif.Mc.Reply

/-!
C122: memcache clients of a server that has a password.
-/

namespace Verif.Mc
open Verif.Cmd Verif.Resp Verif.Num

/-- The text `auth`. -/
def authName : Bytes := [97, 117, 116, 104]

/-- What the parser gives is not the command AUTH. -/
def NoAuth (r : PR (Req × Nat)) : Prop := ∀ args nr n, r = .got (.cmd args nr, n) → argeq (args.headD []) authName = false

theorem noAuth_bad (x : Err) (n : Nat) : NoAuth (.got (.bad x, n)) := by
  intro args nr n h
  cases h

theorem noAuth_cmd {w : Bytes} (h : argeq w authName = false) (l : List Bytes) (nr : Bool) (n : Nat) : NoAuth (.got (.cmd (w :: l) nr, n)) := by
  intro args nr n h'
  cases h'
  exact h

theorem noAuth_bind {α : Type} (r : PR α) {k : α → PR (Req × Nat)} (h : ∀ a, NoAuth (k a)) : NoAuth (r.bind k) := by
  cases r with
  | got a => exact h a
  | _ => intro args nr n h'; cases h'

theorem noAuth_ite {c : Prop} [Decidable c] {a b : PR (Req × Nat)} (ha : NoAuth a) (hb : NoAuth b) : NoAuth (if c then a else b) := by
  split
  · exact ha
  · exact hb

theorem noAuth_value (data : Bytes) (n x : Nat) {k : Bytes → Req} (h : ∀ v m, NoAuth (.got (k v, m))) : NoAuth (withValue data n x k) := by
  unfold withValue
  refine noAuth_ite (by intro args nr n h'; cases h') (noAuth_ite (noAuth_bad _ _) (h _ _))

theorem noAuth_five (data : Bytes) (n : Nat) (key exp len : Bytes) : NoAuth (setFive data n key exp len) := by
  unfold setFive
  refine noAuth_ite (noAuth_bad _ _) (noAuth_ite (noAuth_bad _ _) ?_)
  cases parseI64 len with
  | none => exact noAuth_bad _ _
  | some x => exact noAuth_ite (noAuth_bad _ _) (noAuth_value _ _ _ fun v m => noAuth_cmd (by decide) _ _ _)

theorem noAuth_store (cmd : Cmd) (key v flags exp cas : Bytes) (nr : Bool) (m : Nat) : NoAuth (.got (.cmd (storeArgs cmd key v flags exp cas) nr, m)) := by
  unfold storeArgs
  split
  · exact noAuth_cmd (by decide) _ _ _
  · exact noAuth_cmd (by decide) _ _ _
  · simp only [List.cons_append]
    exact noAuth_cmd (by decide) _ _ _

theorem noAuth_plus (data : Bytes) (n : Nat) (cmd : Cmd) (args : List Bytes) (nr : Bool) : NoAuth (storePlus data n cmd args nr) := by
  unfold storePlus
  refine noAuth_bind _ fun key => noAuth_ite (noAuth_bad _ _) (noAuth_bind _ fun flags => noAuth_ite (noAuth_bad _ _) (noAuth_bind _ fun exp =>
    noAuth_ite (noAuth_bad _ _) (noAuth_bind _ fun len => ?_)))
  cases parseI64 len with
  | none => exact noAuth_bad _ _
  | some x =>
    have go : ∀ cas, NoAuth (withValue data n x.toNat fun v => .cmd (storeArgs cmd key v flags exp cas) nr) := fun cas =>
      noAuth_value _ _ _ fun v m => noAuth_store _ _ _ _ _ _ _ _
    exact noAuth_ite (noAuth_bad _ _) (noAuth_ite (noAuth_bind _ fun cas => noAuth_ite (noAuth_bad _ _) (go cas)) (go []))

theorem noAuth_other (n : Nat) (cmd : Cmd) (args : List Bytes) (nr : Bool) : NoAuth (other n cmd args nr) := by
  cases cmd <;> unfold other <;> dsimp only
  all_goals
    repeat first
      | exact noAuth_bad _ _
      | exact noAuth_cmd (by decide) _ _ _
      | refine noAuth_ite ?_ ?_
      | refine noAuth_bind _ fun _ => ?_

theorem parseMc_noAuth (data : Bytes) : NoAuth (parseMc data) := by
  unfold parseMc
  refine noAuth_bind _ fun ⟨args, n⟩ => ?_
  cases args with
  | nil => exact noAuth_bad _ _
  | cons w rest =>
    dsimp only
    refine noAuth_ite (noAuth_bind _ fun key => noAuth_ite (noAuth_bad _ _) (noAuth_cmd (by decide) _ _ _)) (noAuth_ite
      (noAuth_bind _ fun key => noAuth_bind _ fun flags => noAuth_bind _ fun exp => noAuth_bind _ fun len => noAuth_ite (noAuth_five _ _ _ _ _) (noAuth_plus _ _ _ _ _)) ?_)
    cases lookup w with
    | none => exact noAuth_bad _ _
    | some cmd => exact noAuth_ite (noAuth_plus _ _ _ _ _) (noAuth_other _ _ _ _)

/-- **C122 is false.**  When a password is configured, then every request that a memcache client can send, whatever its bytes, is answered by
`CLIENT_ERROR Authentication required` or by the error of the parser; nothing is done to the cache and the connection stays without access. -/
theorem memcache_never_in {e : Env} (he : e.proto = .memcache) {pw : Bytes} (hpw : pw ≠ []) (oth : Fn → Env → List Bytes → Prog (List W)) (data : Bytes) (q : Req) (n : Nat)
    (h : parseMc data = .got (q, n)) :
    (∃ x, q = .bad x) ∨ ∃ args nr, q = .cmd args nr ∧ evcommand e pw oth args ⟨false⟩ = .ret ([.raw authRequired], ⟨false⟩) := by
  cases q with
  | bad x => exact .inl ⟨x, rfl⟩
  | cmd args nr =>
    have ha : argeq (args.headD []) [97, 117, 116, 104] = false := parseMc_noAuth data args nr n h
    refine .inr ⟨args, nr, rfl, ?_⟩
    unfold evcommand
    rw [if_pos ⟨hpw, rfl, by rw [he]; decide⟩]
    unfold cmdAUTH
    rw [if_pos ha, if_pos he]

/-- `get k` is a request; so is what memcached would take as the password, `set u 0 0 3` with the value `u p`. -/
example : parseMc "get k\r\n".toUTF8.toList = .got (.cmd ["mget".toUTF8.toList, "k".toUTF8.toList] false, 7) ∧
    parseMc "set u 0 0 3\r\nu p\r\n".toUTF8.toList = .got (.cmd ["set".toUTF8.toList, "u".toUTF8.toList, "u p".toUTF8.toList] false, 18) := by decide +kernel

end Verif.Mc
