import Mathlib.Tactic.Common
import Verif.Many.Model
import Verif.Cache.Forget
import Verif.Wire.Props

/-!
C101: what calls on a key do when the clocks of the threads do not agree.
-/

namespace Verif.Many

open Verif.Num Verif.Resp Verif.Cmd Verif.Cache Verif.Shard Verif.Map Verif.Wire Function

/-- All allocations succeed. -/
def full : Nat → Nat → Mem := fun _ _ => ⟨true, true, true⟩

/-- A call on a key, with arguments of 64 bits, when memory is not low. -/
def Good : Spec.Call → Prop
  | .load .. => True
  | .store a => IsI64 a.ttl ∧ a.lowmem = false
  | .delete _ ask => ask = none
  | _ => False

/-- All calls are good. -/
def Goods {α : Type} : Prog α → Prop
  | .ret _ => True
  | .call op k => Good op ∧ ∀ r, Goods (k r)

/-- All calls are on the key. -/
def On {α : Type} (key : Bytes) : Prog α → Prop
  | .ret _ => True
  | .call op k => callKey op = some key ∧ ∀ r, On key (k r)

/-- A call that only looks. -/
def Looks : Spec.Call → Prop
  | .load _ _ cb => ∀ f it, cb = some f → f it = none
  | _ => False

/-- Only the last call may change something. -/
def LooksFirst {α : Type} : Prog α → Prop
  | .ret _ => True
  | .call op k => (∀ r, ∃ a, k r = .ret a) ∨ (Looks op ∧ ∀ r, LooksFirst (k r))

theorem good_key {op : Spec.Call} (h : Good op) : ∃ key, callKey op = some key := by
  cases op <;> first | exact ⟨_, rfl⟩ | exact absurd h (by simp [Good])

theorem call_exact {c : Ctx} (hv : c.Valid) {n : Nat} (hn : 0 < n) (i : Nat) {now : Int} (h0 : 0 < now) (h1 : IsI64 now) {op : Spec.Call} (hg : Good op)
    {key : Bytes} (hk : callKey op = some key) {shs : Shards} (h : AllInv c n shs) : RefinesAt c n now key op shs (exec c n (full i) now (toOp op) shs) := by
  cases op with
  | load k nt cb =>
    cases hk
    exact load_refinesAt hv hn (full i) now _ nt cb h fun _ => rfl
  | store a =>
    cases hk
    exact store_refinesAt hv hn (full i) now a h (fun _ => rfl) hg.2 h0 h1 hg.1
  | delete k ask =>
    cases hk
    have hg : ask = none := hg
    subst hg
    exact delete_refinesAt hv hn (full i) now _ h
  | _ => exact absurd hg (by simp [Good])

/-- What is there when the program looks: if it makes a call at all, its key is gone if it has expired. -/
def before {α : Type} (now : Int) (key : Bytes) (st : Spec.State) : Prog α → Spec.State
  | .ret _ => st
  | .call _ _ => forget now key st

theorem looks_step {env : Spec.Env} {oom : Bool} {now : Int} {op : Spec.Call} (h : Looks op) {s s' : Spec.State} {r : Spec.Reply}
    (hs : Spec.Step env oom now op s r s') : s' = s := by
  cases op with
  | load k nt cb =>
    unfold Spec.Step at hs
    simp only [] at hs
    split at hs
    · exact hs.2
    · split at hs
      · exact hs.2
      · rename_i f
        rw [h f _ rfl] at hs
        exact hs.2
  | _ => exact absurd h (by simp [Looks])

/-- A program on one key, run on the cache, does to what is known from `t0` on, which may be long before it runs, what it does to the dictionary without the
key, if that has expired. -/
theorem prog_exact {α : Type} {c : Ctx} (hv : c.Valid) {n : Nat} (hn : 0 < n) {now : Int} (h0 : 0 < now) (h1 : IsI64 now) {key : Bytes}
    (p : Prog α) (hg : Goods p) (ho : On key p) (hl : LooksFirst p) (i : Nat) (shs : Shards) (h : AllInv c n shs) :
    (∃ a shs', p.exec c n full now i shs = .val (a, shs') ∧ AllInv c n shs' ∧
      (NoWrap n shs' → NoWrap n shs ∧ ∀ t0 st, t0 ≤ now → R c n t0 shs st → ∃ st', R c n t0 shs' st' ∧
        Runs ⟨c.usecas, c.noevict, shardIdx c n⟩ alone false now p (before now key st p) a st')) ∨
    p.exec c n full now i shs = .abort true := by
  induction p generalizing i shs with
  | ret a =>
    left
    exact ⟨a, shs, rfl, h, fun hnw => ⟨hnw, fun t0 st _ hR => ⟨st, hR, .ret a st⟩⟩⟩
  | call op k ih =>
    rw [Prog.exec]
    rcases call_exact hv hn i h0 h1 hg.1 ho.1 h with ⟨r, hr, hA, hspec⟩ | hab
    swap
    · right
      rw [hab]
      rfl
    rw [hr]
    simp only [Out.bind]
    rcases hl with hl | ⟨hlk, hl⟩
    · obtain ⟨a, ha⟩ := hl (reply r)
      left
      rw [ha]
      refine ⟨a, r.shs, rfl, hA, fun hnw => ?_⟩
      obtain ⟨hnw0, hs1⟩ := hspec hnw
      refine ⟨hnw0, fun t0 st hle hR => ?_⟩
      obtain ⟨st1, hR1, hstep⟩ := hs1 t0 st hle hR
      exact ⟨st1, hR1, .call rfl hstep (ha ▸ .ret a st1)⟩
    · rcases ih (reply r) (hg.2 _) (ho.2 _) (hl _) (i + 1) r.shs hA with ⟨a, shs', hx, hA', hs'⟩ | hab
      · left
        refine ⟨a, shs', hx, hA', fun hnw => ?_⟩
        obtain ⟨hnw1, hs2⟩ := hs' hnw
        obtain ⟨hnw0, hs1⟩ := hspec hnw1
        refine ⟨hnw0, fun t0 st hle hR => ?_⟩
        obtain ⟨st1, hR1, hstep⟩ := hs1 t0 st hle hR
        obtain ⟨st2, hR2, hruns⟩ := hs2 t0 st1 hle hR1
        refine ⟨st2, hR2, .call rfl hstep ?_⟩
        have h1 := looks_step hlk hstep
        have h2 : before now key st1 (k (reply r)) = st1 := by
          cases k (reply r) with
          | ret _ => rfl
          | call _ _ =>
            show forget now key st1 = st1
            rw [h1, forget_forget]
        rw [h2] at hruns
        exact hruns
      · exact Or.inr hab

/-! ### What is kept -/

/-- Without the key, if that has expired. -/
def dropped (now : Int) (k : Bytes) (m : Store) : Store := update m k (m.see now k)

theorem dropped_drops (now : Int) {k : Bytes} {ks : List Bytes} (hk : k ∈ ks) (m : Store) : Drops now ks m (dropped now k m) := by
  intro j
  by_cases hj : j = k
  · subst hj
    unfold dropped
    rw [update_self]
    cases h : m.see now j with
    | none => exact Or.inr ⟨hk, by first | rfl | exact h, rfl⟩
    | some x =>
      left
      unfold Store.see at h
      rw [Option.filter_eq_some_iff] at h
      exact h.1.symm
  · left
    unfold dropped
    rw [update_of_ne hj]

theorem drops_refl (now : Int) (ks : List Bytes) (m : Store) : Drops now ks m m := fun _ => Or.inl rfl

theorem see_see {m : Store} {t0 now : Int} (h : t0 ≤ now) (k : Bytes) : Store.see (dropped now k m) t0 k = m.see now k := by
  unfold dropped
  cases hm : m.see now k with
  | none => unfold Store.see; rw [update_self]; rfl
  | some x =>
    have h1 := hm
    unfold Store.see at h1
    rw [Option.filter_eq_some_iff] at h1
    unfold Store.see
    rw [update_self, Option.filter_some]
    have : (x.upto.all fun d => decide (t0 < d)) = true := by
      obtain ⟨_, h2⟩ := h1
      cases hx : x.upto with
      | none => rfl
      | some d =>
        rw [hx] at h2
        simp at h2 ⊢
        omega
    rw [if_pos this]

theorem agrees_forget {t0 now : Int} {st : Spec.State} {m : Store} (h : Agrees t0 st.dict m) (hle : t0 ≤ now) (k : Bytes) :
    Agrees t0 (forget now k st).dict (dropped now k m) := by
  have e : (fun j => ((forget now k st).dict j).map kept) = dropped now k fun j => (st.dict j).map kept := by
    funext j
    unfold dropped forget
    by_cases hj : j = k
    · subst hj; simp only [update_self, see_get]
    · simp only [update_of_ne hj]
  have hother : ∀ (m : Store) j, j ≠ k → Store.see (dropped now k m) t0 j = m.see t0 j := by
    intro m j hj
    exact see_congr (by unfold dropped; rw [update_of_ne hj])
  refine ⟨fun j => ?_, fun j x hx => ?_⟩
  · rw [e]
    by_cases hj : j = k
    · subst hj
      rw [see_see hle, see_see hle]
      exact (h.later hle).1 j
    · rw [hother _ j hj, hother _ j hj]
      exact h.1 j
  · by_cases hj : j = k
    · subst hj
      rw [see_see hle] at hx
      exact (h.later hle).2 j x hx
    · rw [hother _ j hj] at hx
      exact h.2 j x hx

end Verif.Many
