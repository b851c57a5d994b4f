import Verif.Cmd.Service

/-!
C71: the options and the reply of SCAN.
-/

namespace Verif.Cmd

open Verif.Num Verif.Resp Verif.Map Verif.Shard Verif.Cache

/-! ### Specification -/

/-- An option of SCAN. -/
inductive ScanOpt where
  | mtch (p : Bytes)
  | cnt (n : Nat)
  | str

/-- A text of digits (with leading zeros or a plus) that denotes `n`. -/
def Digits (t : Bytes) (n : Nat) : Prop := t.length ≤ 21 ∧ DenotesInt t n ∧ n < 2 ^ 64 ∧ ∃ b r, t = b :: r ∧ b ∉ ([32, 9, 10, 11, 12, 13, 45] : Bytes)

/-- The option in the request: two arguments, the first in any case. -/
def ScanOpt.Said : ScanOpt → Bytes → Bytes → Prop
  | .mtch p, a, x => Spells a [109, 97, 116, 99, 104] ∧ x = p
  | .cnt n, a, x => Spells a [99, 111, 117, 110, 116] ∧ Digits x n ∧ 0 < n ∧ n < 2 ^ 31
  | .str, a, x => Spells a [116, 121, 112, 101] ∧ Spells x [115, 116, 114, 105, 110, 103]

/-- A list of options in the request. -/
inductive ScanOpts : List Bytes → List ScanOpt → Prop where
  | nil : ScanOpts [] []
  | cons {o : ScanOpt} {a x : Bytes} {as : List Bytes} {os : List ScanOpt} : o.Said a x → ScanOpts as os → ScanOpts (a :: x :: as) (o :: os)

/-- The last pattern given, or `p`. -/
def lastPattern (p : Bytes) : List ScanOpt → Bytes
  | [] => p
  | .mtch q :: os => lastPattern q os
  | _ :: os => lastPattern p os

/-- The last count given, or `n`. -/
def lastCount (n : Nat) : List ScanOpt → Nat
  | [] => n
  | .cnt k :: os => lastCount k os
  | _ :: os => lastCount n os

/-- See `pingName`. -/
def scanName : Bytes := [115, 99, 97, 110]

/-! ### Proofs -/

theorem Digits.parse {t : Bytes} {n : Nat} (h : Digits t n) : parseU64 t = some n := by
  obtain ⟨h1, h2, h3, b, r, rfl, hb⟩ := h
  refine (parseU64_exact_partial _ n ?_).2 (Or.inr ⟨h1, h2, ?_, h3⟩)
  · intro b' hb'
    simp only [List.head?_cons, Option.some.injEq] at hb'
    subst hb'
    intro hc
    exact hb (by simp only [List.mem_cons, List.not_mem_nil, or_false] at hc ⊢; tauto)
  · simp only [List.head?_cons, ne_eq, Option.some.injEq]
    rintro rfl
    exact hb (by decide)

theorem spells_argeq {a low : Bytes} (hl : low.map lower = low) : Spells a low ↔ argeq a low = true := by rw [spells_iff _ _ hl, argeq_iff]

theorem argeq_other {a low low' : Bytes} (h : argeq a low = true) (hne : low ≠ low') : argeq a low' = false := by
  rw [Bool.eq_false_iff]
  intro h'
  rw [argeq_iff] at h h'
  exact hne (h.symm.trans h')

theorem scanLoop_said {as : List Bytes} {os : List ScanOpt} (h : ScanOpts as os) (rest : List Bytes) (p : Bytes) (n : Nat) :
    scanLoop (as ++ rest) (p, n) = scanLoop rest (lastPattern p os, lastCount n os) := by
  induction h generalizing p n with
  | nil => rfl
  | @cons o a x as os ho _ ih =>
    rw [List.cons_append, List.cons_append, scanLoop]
    cases o with
    | mtch q =>
      obtain ⟨h1, rfl⟩ := ho
      rw [spells_argeq (by decide)] at h1
      rw [if_pos h1, ih]; rfl
    | cnt k =>
      obtain ⟨h1, h2, h3, h4⟩ := ho
      rw [spells_argeq (by decide)] at h1
      rw [argeq_other (low' := [109, 97, 116, 99, 104]) h1 (by decide), if_neg (by decide), if_pos h1, h2.parse]
      simp only []
      rw [if_neg (by omega), ih]; rfl
    | str =>
      obtain ⟨h1, h2⟩ := ho
      rw [spells_argeq (by decide)] at h1 h2
      rw [argeq_other (low' := [109, 97, 116, 99, 104]) h1 (by decide), if_neg (by decide), argeq_other (low' := [99, 111, 117, 110, 116]) h1 (by decide), if_neg (by decide), if_pos h1, if_pos h2,
        ih]
      rfl

/-- Whatever the options: the count is positive. -/
theorem scanLoop_pos (as : List Bytes) {o r : Bytes × Nat} (ho : 0 < o.2 ∧ o.2 < 2 ^ 31) (h : scanLoop as o = .ok r) : 0 < r.2 ∧ r.2 < 2 ^ 31 := by
  induction as using List.twoStepInduction generalizing o with
  | nil => unfold scanLoop at h; cases h; exact ho
  | singleton a => unfold scanLoop at h; cases h
  | cons_cons a x as ih _ =>
    obtain ⟨p, n⟩ := o
    unfold scanLoop at h
    split at h
    · exact ih (o := (x, n)) ho h
    · split at h
      · split at h
        · cases h
        · split at h
          · cases h
          · exact ih (o := (p, _)) (by simp only []; omega) h
      · split at h
        · split at h
          · exact ih (o := (p, n)) ho h
          · cases h
        · cases h

theorem replies_map (ks : List Bytes) : Val.replies (ks.map Val.bulk) = ks.map Reply.bulk := by
  induction ks with
  | nil => rfl
  | cons k ks ih => simp only [List.map_cons, Val.replies, ih, Val.reply]

theorem allOk_map {ks : List Bytes} (h : ∀ k ∈ ks, k.length < 2 ^ 64) : Val.AllOk (ks.map Val.bulk) := by
  induction ks with
  | nil => trivial
  | cons k ks ih => exact ⟨h k (by simp), ih fun k hk => h k (by simp [hk])⟩

theorem renderAll_bulks (ks : List Bytes) (buf : Bytes) : renderAll (ks.map W.bulk) buf = Val.writeAll buf (ks.map Val.bulk) := by
  induction ks generalizing buf with
  | nil => rfl
  | cons k ks ih =>
    rw [List.map_cons, List.map_cons, Val.writeAll]
    exact ih _

variable {env : Spec.Env} {I : Spec.State → Spec.State → Prop} {oom : Bool} {e : Env} {pw : Bytes} {y : Sys} {s s' : Spec.State} {out : List W} {name : Bytes}

theorem scan_replies {r : List Bytes × Nat} (hr : r.2 < 2 ^ 64) (hl : r.1.length < 2 ^ 64) (hk : ∀ k ∈ r.1, k.length < 2 ^ 64) :
    Answers (.arr 2 :: .bulk (u64toa r.2) :: .arr r.1.length :: r.1.map .bulk) (.array [.bulk (u64toa r.2), .array (r.1.map .bulk)]) := by
  have h := answers_val (out := .arr 2 :: .bulk (u64toa r.2) :: .arr r.1.length :: r.1.map .bulk) (.array [.bulk (u64toa r.2), .array (r.1.map .bulk)])
    ⟨by simp, by have := u64toa_length_le 19 r.2 (by omega); show (u64toa r.2).length < 2 ^ 64; omega, ⟨by rw [List.length_map]; exact hl, allOk_map hk⟩, trivial⟩ ?_
  · simpa only [Val.reply, Val.replies, replies_map] using h
  · intro buf
    have := renderAll_bulks r.1 (render (render (render buf (.arr 2)) (.bulk (u64toa r.2))) (.arr r.1.length))
    simp only [renderAll, List.foldl_cons] at this ⊢
    rw [this]
    simp only [Val.write, Val.writeAll, List.length_map, List.length_cons, List.length_nil]
    rfl

/-- **C71.**  SCAN with any options in any order, in any case, also repeated: the last pattern and the last count given hold, otherwise `*` and 100; the reply is the cursor and the
keys. -/
theorem scan_request {cursor : Bytes} {as : List Bytes} {os : List ScanOpt} {c : Nat} {r : List Bytes × Nat} (hs : Spells name scanName) (hp : e.proto = .resp) (hc : Digits cursor c)
    (ho : ScanOpts as os) (hr : y.scan c (lastPattern [42] os) (lastCount 100 os) = some r) (hr1 : r.2 < 2 ^ 64) (hr2 : r.1.length < 2 ^ 64) (hr3 : ∀ k ∈ r.1, k.length < 2 ^ 64)
    (h : Executes env I oom e pw (admin y) (name :: cursor :: as) s out s') :
    s' = s ∧ Answers out (.array [.bulk (u64toa r.2), .array (r.1.map .bulk)]) := by
  rw [executes_iff hs (by decide : (scanName, Fn.cmdSCAN) ∈ cmds) (p := cmdSCAN y e (name :: cursor :: as)) rfl] at h
  unfold cmdSCAN at h
  have hl := scanLoop_said ho [] [42] 100
  rw [List.append_nil] at hl
  simp only [hc.parse, hl, scanLoop, hr, hp] at h
  rw [if_neg (by decide)] at h
  obtain ⟨rfl, rfl⟩ := runs_ret h
  exact ⟨rfl, scan_replies hr1 hr2 hr3⟩

/-- **C71.**  COUNT 0, which would make following the cursors endless, is refused, whatever stands before and behind it. -/
theorem scan_count_zero {cursor a x : Bytes} {as rest : List Bytes} {os : List ScanOpt} {c : Nat} (hs : Spells name scanName) (hc : Digits cursor c)
    (ho : ScanOpts as os) (ha : Spells a [99, 111, 117, 110, 116]) (hx : Digits x 0) (h : Executes env I oom e pw (admin y) (name :: cursor :: (as ++ a :: x :: rest)) s out s') :
    s' = s ∧ ∃ m, Answers out (.error m) := by
  rw [executes_iff hs (by decide : (scanName, Fn.cmdSCAN) ∈ cmds) (p := cmdSCAN y e (name :: cursor :: (as ++ a :: x :: rest))) rfl] at h
  unfold cmdSCAN at h
  rw [spells_argeq (by decide)] at ha
  have hl : scanLoop (as ++ a :: x :: rest) ([42], 100) = .error .syntaxError := by
    rw [scanLoop_said ho, scanLoop, argeq_other (low' := [109, 97, 116, 99, 104]) ha (by decide), if_neg (by decide), if_pos ha, hx.parse]
    rfl
  simp only [hc.parse, hl] at h
  obtain ⟨rfl, rfl⟩ := runs_ret h
  exact ⟨rfl, _, answers_val (.error (ErrMsg.text .syntaxError)) (by unfold Val.Ok; decide) (fun _ => rfl)⟩

/-- **C71.**  Every SCAN request, whatever its arguments, is refused or asks the cache for at least one key, so following the cursors gets on. -/
theorem scan_gets_on {args : List Bytes} (hs : Spells name scanName) (hp : e.proto = .resp) (h : Executes env I oom e pw (admin y) (name :: args) s out s') :
    s' = s ∧ ((∃ m, out = [.err m]) ∨ ∃ c p k, 0 < k ∧ k < 2 ^ 31 ∧ (y.scan c p k = none ∧ out = [.undefined] ∨
      ∃ r, y.scan c p k = some r ∧ out = .arr 2 :: .bulk (u64toa r.2) :: .arr r.1.length :: r.1.map .bulk)) := by
  rw [executes_iff hs (by decide : (scanName, Fn.cmdSCAN) ∈ cmds) (p := cmdSCAN y e (name :: args)) rfl] at h
  unfold cmdSCAN at h
  cases args with
  | nil =>
    obtain ⟨rfl, rfl⟩ := runs_ret h
    exact ⟨rfl, Or.inl ⟨_, rfl⟩⟩
  | cons cursor as =>
    simp only [] at h
    cases hc : parseU64 cursor with
    | none =>
      simp only [hc] at h
      obtain ⟨rfl, rfl⟩ := runs_ret h
      exact ⟨rfl, Or.inl ⟨_, rfl⟩⟩
    | some c =>
      simp only [hc] at h
      cases hl : scanLoop as ([42], 100) with
      | error m =>
        simp only [hl] at h
        obtain ⟨rfl, rfl⟩ := runs_ret h
        exact ⟨rfl, Or.inl ⟨_, rfl⟩⟩
      | ok o =>
        obtain ⟨p, k⟩ := o
        have hk := scanLoop_pos as (o := ([42], 100)) (by decide) hl
        simp only [hl] at h
        cases hy : y.scan c p k with
        | none =>
          simp only [hy] at h
          obtain ⟨rfl, rfl⟩ := runs_ret h
          exact ⟨rfl, Or.inr ⟨c, p, k, hk.1, hk.2, Or.inl ⟨hy, rfl⟩⟩⟩
        | some r =>
          simp only [hy, hp] at h
          rw [if_neg (by decide)] at h
          obtain ⟨rfl, rfl⟩ := runs_ret h
          exact ⟨rfl, Or.inr ⟨c, p, k, hk.1, hk.2, Or.inr ⟨r, hy, rfl⟩⟩⟩

/-! ### The hypotheses are met -/

/-- `scan 7 COUNT 5 match a* Count 20 TYPE string`. -/
example : ScanOpts [[67, 79, 85, 78, 84], [53], [109, 97, 116, 99, 104], [97, 42], [67, 111, 117, 110, 116], [50, 48], [84, 89, 80, 69], [115, 116, 114, 105, 110, 103]]
      [.cnt 5, .mtch [97, 42], .cnt 20, .str] ∧ lastPattern [42] [.cnt 5, .mtch [97, 42], .cnt 20, .str] = [97, 42] ∧ lastCount 100 [.cnt 5, .mtch [97, 42], .cnt 20, .str] = 20 ∧
    Digits [55] 7 ∧ Digits [48] 0 := by
  have h5 : Digits [53] 5 := ⟨by decide, ⟨[], [], [53], rfl, by decide, by decide, by decide, Or.inl ⟨by decide, by decide⟩⟩, by decide, _, _, rfl, by decide⟩
  have h20 : Digits [50, 48] 20 := ⟨by decide, ⟨[], [], [50, 48], rfl, by decide, by decide, by decide, Or.inl ⟨by decide, by decide⟩⟩, by decide, _, _, rfl, by decide⟩
  refine ⟨.cons ⟨(spells_iff _ _ (by decide)).2 (by decide), h5, by decide, by decide⟩ (.cons ⟨spells_self, rfl⟩
    (.cons ⟨(spells_iff _ _ (by decide)).2 (by decide), h20, by decide, by decide⟩ (.cons ⟨(spells_iff _ _ (by decide)).2 (by decide), spells_self⟩ .nil))), rfl, rfl, ?_, ?_⟩
  · exact ⟨by decide, ⟨[], [], [55], rfl, by decide, by decide, by decide, Or.inl ⟨by decide, by decide⟩⟩, by decide, _, _, rfl, by decide⟩
  · exact ⟨by decide, ⟨[], [], [48], rfl, by decide, by decide, by decide, Or.inl ⟨by decide, by decide⟩⟩, by decide, _, _, rfl, by decide⟩

/-- Such requests can be executed. -/
example (hy : y.scan 7 [42] 100 = some ([[1], [2]], 0)) :
    Executes env I oom (at_ .resp 5) pw (admin y) [scanName, [55]] s [.arr 2, .bulk [48], .arr 2, .bulk [1], .bulk [2]] s := by
  refine (executes_iff spells_self (by decide : (scanName, Fn.cmdSCAN) ∈ cmds) (p := cmdSCAN y (at_ .resp 5) [scanName, [55]]) rfl).2 ?_
  unfold cmdSCAN
  simp only [show parseU64 [55] = some 7 from by decide +kernel, scanLoop, hy]
  exact .ret _ _

end Verif.Cmd
