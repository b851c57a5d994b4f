import Mathlib.Tactic.Common
import Verif.Mc.Props

/-!
C38: memcache requests and the arguments that exist.
-/

namespace Verif.Mc

open Verif.Num Verif.Resp

/-! ### Specification -/

/-- The last word of a line without its CR. -/
def chomp (w : Bytes) : Bytes := if w.getLast? = some 13 then w.dropLast else w

/-- The arguments of a line with the given words: without an empty last word. -/
def argsOf (ws : List Bytes) : List Bytes :=
  ws.dropLast ++ (if chomp (ws.getLastD []) = [] then [] else [chomp (ws.getLastD [])])

/-- Arguments besides a final `noreply`. -/
def without (as : List Bytes) : List Bytes := if as.getLast? = some noreplyWord then as.dropLast else as

/-- A storage command or `verbosity` with arguments missing. -/
def Missing (as : List Bytes) : Prop :=
  (∃ v : Verb, as.head? = some v.name ∧ (without as).length < (if v = .cas then 6 else 5)) ∨
  (as.head? = some [118, 101, 114, 98, 111, 115, 105, 116, 121] ∧ (without as).length < 2)

/-- The line ends with a blank, and an earlier word ends with CR. -/
def StrayCr (ws : List Bytes) : Prop := ws.getLastD [] = [] ∧ ∃ w ∈ ws, w.getLast? = some 13

/-! ### Proofs -/

theorem lineLoop_last (w : Bytes) (hw : 32 ∉ w ∧ 10 ∉ w) (r : Bytes) (i : Nat) (as : List Bytes) (a : Bytes) (l : UInt8) :
    lineLoop (w ++ r) i as a l = lineLoop r (i + w.length) as (a ++ w) (w.getLast?.getD l) := by
  induction w generalizing i a l with
  | nil => simp
  | cons b w ih =>
    have hb1 : b ≠ 32 := by rintro rfl; exact hw.1 (by simp)
    have hb2 : b ≠ 10 := by rintro rfl; exact hw.2 (by simp)
    rw [List.cons_append, lineLoop, if_neg hb1, if_neg hb2, ih ⟨fun hc => hw.1 (by simp [hc]), fun hc => hw.2 (by simp [hc])⟩]
    have h1 : i + 1 + w.length = i + (b :: w).length := by simp; omega
    have h2 : a ++ [b] ++ w = a ++ b :: w := by simp
    have h3 : (w.getLast?.getD b) = ((b :: w).getLast?.getD l) := by
      cases w with
      | nil => rfl
      | cons c w => simp [List.getLast?_cons_cons, List.getLast?_eq_some_getLast]
    rw [h1, h2, h3]

/-- What the loop makes of any complete line. -/
theorem lineLoop_any (ws : List Bytes) (hne : ws ≠ []) (hw : ∀ w ∈ ws, 32 ∉ w ∧ 10 ∉ w) (r : Bytes) (i : Nat) (as : List Bytes)
    (l : UInt8) :
    lineLoop (joined ws ++ 10 :: r) i as [] l = .got (as ++ argsOf ws, i + (joined ws).length + 1) ∨
    (lineLoop (joined ws ++ 10 :: r) i as [] l = .ub ∧ ws.getLastD [] = [] ∧ (l = 13 ∨ ∃ w ∈ ws, w.getLast? = some 13)) := by
  induction ws generalizing i as l with
  | nil => exact absurd rfl hne
  | cons w ws ih =>
    have hw0 := hw w (by simp)
    cases ws with
    | nil =>
      rw [joined, lineLoop_last w hw0, lineLoop, if_neg (by decide), if_pos rfl, List.nil_append]
      unfold argsOf chomp
      simp only [List.dropLast_singleton, List.getLastD_cons, List.getLastD_nil, List.nil_append]
      rcases List.eq_nil_or_concat w with rfl | ⟨w, b, rfl⟩
      · simp only [List.getLast?_nil, Option.getD_none, List.length_nil, List.not_mem_nil]
        by_cases hl : l = 13
        · right; simp [hl]
        · left; simp [hl]
      · left
        simp only [List.concat_eq_append, List.getLast?_append, List.getLast?_singleton, Option.some_or, Option.getD_some, Option.some.injEq,
          List.dropLast_concat, List.length_append, List.length_singleton]
        by_cases hb : b = 13
        · simp only [hb, if_true]
          rw [if_neg (by simp)]
          by_cases hw1 : w = []
          · simp [hw1]
          · have : 0 < w.length := List.length_pos_iff.2 hw1
            rw [if_pos (by omega), if_neg hw1]
            simp
        · simp [hb]
    | cons w' ws =>
      have hj : joined (w :: w' :: ws) = w ++ 32 :: joined (w' :: ws) := rfl
      rw [hj, List.append_assoc, lineLoop_last w hw0, List.cons_append, lineLoop, if_pos rfl, List.nil_append]
      have hargs : argsOf (w :: w' :: ws) = w :: argsOf (w' :: ws) := by
        unfold argsOf
        rw [List.getLastD_cons, List.getLastD_cons, List.getLastD_cons]
        simp
      rcases ih (by simp) (fun x hx => hw x (by simp [hx])) (i + w.length + 1) (as ++ [w]) (w.getLast?.getD l) with h | ⟨h, h1, h2⟩
      · left
        rw [h, hargs]
        simp
        omega
      · right
        refine ⟨h, by rw [List.getLastD_cons] at h1 ⊢; rw [List.getLastD_cons]; exact h1, ?_⟩
        rcases h2 with h2 | ⟨x, hx, h2⟩
        · cases hg : w.getLast? with
          | none => rw [hg] at h2; exact Or.inl h2
          | some b =>
            rw [hg] at h2
            have h2 : b = 13 := h2
            exact Or.inr ⟨w, by simp, by rw [hg, h2]⟩
        · exact Or.inr ⟨x, by simp [hx], h2⟩

theorem exists_words (l : Bytes) (h : 10 ∉ l) : ∃ ws : List Bytes, ws ≠ [] ∧ (∀ w ∈ ws, 32 ∉ w ∧ 10 ∉ w) ∧ joined ws = l := by
  induction l with
  | nil => exact ⟨[[]], by simp, by simp, rfl⟩
  | cons b l ih =>
    have hb : b ≠ 10 := by rintro rfl; exact h (by simp)
    obtain ⟨ws, h1, h2, h3⟩ := ih fun hc => h (by simp [hc])
    by_cases hs : b = 32
    · cases ws with
      | nil => exact absurd rfl h1
      | cons w ws =>
        refine ⟨[] :: w :: ws, by simp, ?_, ?_⟩
        · intro x hx
          rcases List.mem_cons.1 hx with rfl | hx
          · simp
          · exact h2 x hx
        · show [] ++ 32 :: joined (w :: ws) = _
          rw [h3, hs]; rfl
    · cases ws with
      | nil => exact absurd rfl h1
      | cons w ws =>
        refine ⟨(b :: w) :: ws, by simp, ?_, ?_⟩
        · intro x hx
          rcases List.mem_cons.1 hx with rfl | hx
          · have := h2 w (by simp)
            simp [this, Ne.symm hb, Ne.symm hs]
          · exact h2 x (by simp [hx])
        · rw [← h3]
          cases ws <;> rfl

theorem first_lf {s : Bytes} (h : 10 ∈ s) : ∃ l rest, s = l ++ 10 :: rest ∧ 10 ∉ l := by
  induction s with
  | nil => simp at h
  | cons b s ih =>
    by_cases hb : b = 10
    · exact ⟨[], s, by rw [hb]; rfl, by simp⟩
    · obtain ⟨l, rest, h1, h2⟩ := ih (by simpa [Ne.symm hb] using h)
      exact ⟨b :: l, rest, by rw [h1]; rfl, by simp [h2, Ne.symm hb]⟩

theorem arg_ub {as : List Bytes} {i : Nat} (h : arg as i = .ub) : as.length ≤ i := by
  unfold arg at h
  split at h
  · simp at h
  · rename_i hn; exact List.getElem?_eq_none_iff.1 hn

theorem bind_ub {α β : Type} {x : PR α} {f : α → PR β} (h : x.bind f = .ub) : x = .ub ∨ ∃ a, x = .got a ∧ f a = .ub := by
  cases x <;> simp_all [PR.bind]

theorem withValue_ne_ub (data : Bytes) (n x : Nat) (k : Bytes → Req) : withValue data n x k ≠ .ub := by
  unfold withValue
  repeat' split
  all_goals simp

theorem setFive_ne_ub (data : Bytes) (n : Nat) (key exp len : Bytes) : setFive data n key exp len ≠ .ub := by
  unfold setFive
  repeat' split
  all_goals first | exact withValue_ne_ub _ _ _ _ | simp

theorem storePlus_ub {data : Bytes} {n : Nat} {cmd : Cmd} {args : List Bytes} {nr : Bool} (h : storePlus data n cmd args nr = .ub) :
    args.length < if cmd = .cas then 6 else 5 := by
  have h5 : ∀ m, args.length ≤ m → m ≤ 4 → args.length < if cmd = .cas then 6 else 5 := by
    intro m h1 h2; split <;> omega
  unfold storePlus at h
  rcases bind_ub h with h | ⟨key, _, h⟩
  · exact h5 _ (arg_ub h) (by decide)
  split at h
  · simp at h
  rcases bind_ub h with h | ⟨flags, _, h⟩
  · exact h5 _ (arg_ub h) (by decide)
  split at h
  · simp at h
  rcases bind_ub h with h | ⟨exp, _, h⟩
  · exact h5 _ (arg_ub h) (by decide)
  split at h
  · simp at h
  rcases bind_ub h with h | ⟨len, _, h⟩
  · exact h5 _ (arg_ub h) (by decide)
  split at h
  · simp at h
  split at h
  · simp at h
  simp only [] at h
  split at h
  · rename_i hc
    rw [if_pos hc]
    rcases bind_ub h with h | ⟨cas, _, h⟩
    · have := arg_ub h; omega
    · split at h
      · simp at h
      · exact absurd h (withValue_ne_ub _ _ _ _)
  · exact absurd h (withValue_ne_ub _ _ _ _)

theorem other_ub {n : Nat} {cmd : Cmd} {args : List Bytes} {nr : Bool} (hne : args ≠ []) (h : other n cmd args nr = .ub) :
    cmd = .verbosity ∧ args.length < 2 := by
  have hl : 0 < args.length := List.length_pos_iff.2 hne
  have ha : ∀ i, i < args.length → ∃ a, arg args i = .got a := by
    intro i hi
    exact ⟨args[i], by unfold arg; rw [List.getElem?_eq_getElem hi]⟩
  have hb : ∀ i (f : Bytes → PR (Req × Nat)), i < args.length → (arg args i).bind f = .ub → ∃ a, f a = .ub := by
    intro i f hi hf
    rcases bind_ub hf with hf | ⟨a, _, hf⟩
    · have := arg_ub hf; omega
    · exact ⟨a, hf⟩
  unfold other at h
  cases cmd <;> simp only [] at h
  case verbosity =>
    split at h
    · simp at h
    · rcases bind_ub h with h | ⟨a, _, h⟩
      · have := arg_ub h; exact ⟨rfl, by omega⟩
      · simp at h
  case delete =>
    split at h
    · simp at h
    split at h
    · simp at h
    obtain ⟨a, h⟩ := hb 1 _ (by omega) h
    split at h <;> simp at h
  case gat =>
    split at h
    · simp at h
    obtain ⟨a, h⟩ := hb 2 _ (by omega) h
    split at h
    · simp at h
    split at h <;> simp at h
  case gats =>
    split at h
    · simp at h
    obtain ⟨a, h⟩ := hb 2 _ (by omega) h
    split at h
    · simp at h
    split at h <;> simp at h
  case flushAll =>
    split at h
    · simp at h
    split at h
    · obtain ⟨a, h⟩ := hb 1 _ (by omega) h
      simp at h
    · simp at h
  case get =>
    split at h
    · simp at h
    split at h <;> simp at h
  case gets =>
    split at h
    · simp at h
    split at h <;> simp at h
  case incr =>
    split at h
    · simp at h
    obtain ⟨a, h⟩ := hb 1 _ (by omega) h
    obtain ⟨b, h⟩ := hb 2 _ (by omega) h
    split at h <;> simp at h
  case decr =>
    split at h
    · simp at h
    obtain ⟨a, h⟩ := hb 1 _ (by omega) h
    obtain ⟨b, h⟩ := hb 2 _ (by omega) h
    split at h <;> simp at h
  case touch =>
    split at h
    · simp at h
    obtain ⟨a, h⟩ := hb 1 _ (by omega) h
    obtain ⟨b, h⟩ := hb 2 _ (by omega) h
    split at h <;> simp at h
  all_goals simp at h

theorem lookup_name {w : Bytes} {cmd : Cmd} (h : lookup w = some cmd) :
    (cmd.isStore = true → ∃ v : Verb, w = v.name ∧ (v = .cas ↔ cmd = .cas)) ∧
    (cmd = .verbosity → w = [118, 101, 114, 98, 111, 115, 105, 116, 121]) := by
  unfold lookup at h
  by_cases hn : w ∈ ([[115, 101, 116], [97, 100, 100], [99, 97, 115], [114, 101, 112, 108, 97, 99, 101], [97, 112, 112, 101, 110, 100],
    [112, 114, 101, 112, 101, 110, 100], [118, 101, 114, 98, 111, 115, 105, 116, 121]] : List Bytes)
  · simp only [List.mem_cons, List.not_mem_nil, or_false] at hn
    rcases hn with rfl | rfl | rfl | rfl | rfl | rfl | rfl <;> simp at h <;> subst h <;> refine ⟨fun hs => ?_, fun hs => ?_⟩
    all_goals first
      | (simp [Cmd.isStore] at hs; done)
      | (simp at hs; done)
      | rfl
      | exact ⟨.set, rfl, by decide⟩
      | exact ⟨.add, rfl, by decide⟩
      | exact ⟨.replace, rfl, by decide⟩
      | exact ⟨.append, rfl, by decide⟩
      | exact ⟨.prepend, rfl, by decide⟩
      | exact ⟨.cas, rfl, by decide⟩
  · simp only [List.mem_cons, List.not_mem_nil, or_false, not_or] at hn
    obtain ⟨h1, h2, h3, h4, h5, h6, h7⟩ := hn
    simp only [h1, h2, h3, h4, h5, h6, h7, if_false] at h
    have key : ∀ (p : Prop) [Decidable p] (a : Cmd) (b : Option Cmd), (if p then some a else b) = some cmd → a = cmd ∨ b = some cmd := by
      intro p _ a b hp
      by_cases hq : p
      · rw [if_pos hq] at hp; exact Or.inl (Option.some.inj hp)
      · rw [if_neg hq] at hp; exact Or.inr hp
    have fin : cmd.isStore = false ∧ cmd ≠ .verbosity := by
      iterate 12
        rcases key _ _ _ h with h | h
        · rw [← h]; decide
      simp at h
    exact ⟨fun hs => absurd hs (by simp [fin.1]), fun hs => absurd hs fin.2⟩

theorem without_of (as : List Bytes) (b : Bool) (hb : b = true) :
    (if (b && decide (as.getLast? = some [110, 111, 114, 101, 112, 108, 121])) = true then as.dropLast else as) = without as := by
  unfold without noreplyWord
  subst hb
  simp

theorem parse_args_ub {data : Bytes} {as : List Bytes} {n : Nat} (hl : parseLine data = .got (as, n)) (h : parseMc data = .ub) :
    Missing as := by
  unfold parseMc at h
  rw [hl] at h
  simp only [PR.bind] at h
  cases as with
  | nil => simp at h
  | cons w rest =>
    simp only [] at h
    have hb : ∀ i (f : Bytes → PR (Req × Nat)), i < (w :: rest).length → (arg (w :: rest) i).bind f = .ub → ∃ a, f a = .ub := by
      intro i f hi hf
      rcases bind_ub hf with hf | ⟨a, _, hf⟩
      · have := arg_ub hf; omega
      · exact ⟨a, hf⟩
    split at h
    · rename_i hc
      obtain ⟨a, h⟩ := hb 1 _ (by omega) h
      split at h <;> simp at h
    split at h
    · rename_i hc
      obtain ⟨a, h⟩ := hb 1 _ (by omega) h
      obtain ⟨b, h⟩ := hb 2 _ (by omega) h
      obtain ⟨c, h⟩ := hb 3 _ (by omega) h
      obtain ⟨d, h⟩ := hb 4 _ (by omega) h
      split at h
      · exact absurd h (setFive_ne_ub _ _ _ _ _)
      · have := storePlus_ub h
        simp at this
        simp at hc
        omega
    · split at h
      · simp at h
      · rename_i cmd hcmd
        have hn := lookup_name hcmd
        split at h
        · rename_i hst
          obtain ⟨v, hv, hcas⟩ := hn.1 hst
          have hnr : cmd.noreplyable = true := by cases cmd <;> simp_all [Cmd.isStore, Cmd.noreplyable]
          have := storePlus_ub h
          rw [without_of _ cmd.noreplyable hnr] at this
          refine Or.inl ⟨v, by rw [hv]; rfl, ?_⟩
          by_cases hvc : v = .cas
          · rw [if_pos hvc]; rw [if_pos (hcas.1 hvc)] at this; exact this
          · rw [if_neg hvc]; rw [if_neg (fun hc => hvc (hcas.2 hc))] at this; exact this
        · have hne : (if (cmd.noreplyable && decide ((w :: rest).getLast? = some [110, 111, 114, 101, 112, 108, 121])) = true then
              (w :: rest).dropLast else w :: rest) ≠ [] := by
            split
            · rename_i hc
              cases rest with
              | nil =>
                simp at hc
                rw [hc.2] at hcmd
                simp [lookup] at hcmd
              | cons a rest => simp
            · simp
          obtain ⟨rfl, hlt⟩ := other_ub hne h
          rw [without_of _ Cmd.verbosity.noreplyable rfl] at hlt
          exact Or.inr ⟨by rw [hn.2 rfl]; rfl, hlt⟩

/-- **C38, negation.**  `set k` makes the parser use a third argument that does not exist; after `x` CR blank LF the last argument has
length 2^64-1. -/
theorem missing_argument_used : parseMc [115, 101, 116, 32, 107, 13, 10] = .ub ∧ parseMc [120, 13, 32, 10] = .ub := by
  constructor <;> decide +kernel

/-- **C38** (`_partial`: not for storage commands and `verbosity` with arguments missing, nor for lines ending with a blank behind a word
that ends with CR).  For all bytes received: the parser only uses arguments that exist. -/
theorem mc_parse_in_bounds_partial (data : Bytes)
    (hok : ∀ ws rest, data = joined ws ++ 10 :: rest → ws ≠ [] → (∀ w ∈ ws, 32 ∉ w ∧ 10 ∉ w) → ¬ Missing (argsOf ws) ∧ ¬ StrayCr ws) :
    parseMc data ≠ .ub := by
  intro h
  by_cases hlf : 10 ∈ data
  · obtain ⟨l, rest, hd, hl⟩ := first_lf hlf
    obtain ⟨ws, h1, h2, h3⟩ := exists_words l hl
    subst h3
    obtain ⟨hm, hs⟩ := hok ws rest hd h1 h2
    rcases lineLoop_any ws h1 h2 rest 0 [] 0 with hg | ⟨hu, hlast, hcr⟩
    · have hp : parseLine data = .got (argsOf ws, 0 + (joined ws).length + 1) := by rw [hd]; simpa [parseLine] using hg
      exact hm (parse_args_ub hp h)
    · rcases hcr with hcr | hcr
      · exact absurd hcr (by decide)
      · exact hs ⟨hlast, hcr⟩
  · unfold parseMc parseLine at h
    rw [lineLoop_more data hlf] at h
    simp [PR.bind] at h

/-- A line that meets the hypothesis: a storage request with a bad size, which is refused. -/
example : parseMc ([97, 100, 100, 32, 107, 32, 49, 32, 48, 32, 120, 13] ++ [10]) = .got (.bad .format, 13) := by decide +kernel

theorem joined_inj {a b : List Bytes} (ha : ∀ w ∈ a, (32 : UInt8) ∉ w) (hb : ∀ w ∈ b, (32 : UInt8) ∉ w) (hna : a ≠ []) (hnb : b ≠ [])
    (h : joined a = joined b) : a = b := by
  have split : ∀ (x y r s : Bytes), (32 : UInt8) ∉ x → (32 : UInt8) ∉ y → x ++ 32 :: r = y ++ 32 :: s → x = y ∧ r = s := by
    intro x
    induction x with
    | nil =>
      intro y r s _ hy h
      cases y with
      | nil => simpa using h
      | cons c y => simp at h; exact absurd h.1 (fun hc => hy (by simp [← hc]))
    | cons c x ih =>
      intro y r s hx hy h
      cases y with
      | nil => simp at h; exact absurd h.1 (fun hc => hx (by simp [hc]))
      | cons d y =>
        simp at h
        have := ih y r s (fun hc => hx (by simp [hc])) (fun hc => hy (by simp [hc])) h.2
        exact ⟨by rw [h.1, this.1], this.2⟩
  have nosp : ∀ (x y r : Bytes), (32 : UInt8) ∉ x → x ≠ y ++ 32 :: r := by
    rintro x y r hx rfl
    exact hx (by simp)
  induction a generalizing b with
  | nil => exact absurd rfl hna
  | cons x a ih =>
    cases b with
    | nil => exact absurd rfl hnb
    | cons y b =>
      cases a with
      | nil =>
        cases b with
        | nil => simpa [joined] using h
        | cons y' b =>
          have h : x = y ++ 32 :: joined (y' :: b) := h
          exact absurd h (nosp _ _ _ (ha x (by simp)))
      | cons x' a =>
        cases b with
        | nil =>
          have h : x ++ 32 :: joined (x' :: a) = y := h
          exact absurd h.symm (nosp _ _ _ (hb y (by simp)))
        | cons y' b =>
          have h : x ++ 32 :: joined (x' :: a) = y ++ 32 :: joined (y' :: b) := h
          obtain ⟨h1, h2⟩ := split _ _ _ _ (ha x (by simp)) (hb y (by simp)) h
          rw [h1, ih (fun w hw => ha w (by simp [hw])) (fun w hw => hb w (by simp [hw])) (by simp) (by simp) h2]

/-- Hypothesis of `mc_parse_in_bounds_partial` for `set a 0 0 x` CR LF. -/
example : ∀ ws rest, ([115, 101, 116, 32, 97, 32, 48, 32, 48, 32, 120, 13, 10] : Bytes) = joined ws ++ 10 :: rest → ws ≠ [] →
    (∀ w ∈ ws, (32 : UInt8) ∉ w ∧ (10 : UInt8) ∉ w) → ¬ Missing (argsOf ws) ∧ ¬ StrayCr ws := by
  intro ws rest h hne hw
  have hlf : (10 : UInt8) ∉ joined ws := by
    clear h
    induction ws with
    | nil => simp [joined]
    | cons w ws ih =>
      cases ws with
      | nil => exact (hw w (by simp)).2
      | cons w' ws =>
        have hj : joined (w :: w' :: ws) = w ++ 32 :: joined (w' :: ws) := rfl
        rw [hj]
        have := ih (by simp) fun x hx => hw x (by simp [hx])
        simp [(hw w (by simp)).2, this]
  have hj : joined ws = joined [[115, 101, 116], [97], [48], [48], [120, 13]] := by
    have h1 : ([115, 101, 116, 32, 97, 32, 48, 32, 48, 32, 120, 13, 10] : Bytes) =
      joined [[115, 101, 116], [97], [48], [48], [120, 13]] ++ 10 :: [] := rfl
    rw [h1] at h
    have key : ∀ (x y r s : Bytes), (10 : UInt8) ∉ x → (10 : UInt8) ∉ y → x ++ 10 :: r = y ++ 10 :: s → x = y := by
      intro x
      induction x with
      | nil =>
        intro y r s _ hy h
        cases y with
        | nil => rfl
        | cons c y => simp at h; exact absurd h.1 (fun hc => hy (by simp [← hc]))
      | cons c x ih =>
        intro y r s hx hy h
        cases y with
        | nil => simp at h; exact absurd h.1 (fun hc => hx (by simp [hc]))
        | cons d y =>
          simp at h
          rw [h.1, ih y r s (fun hc => hx (by simp [hc])) (fun hc => hy (by simp [hc])) h.2]
    exact (key _ _ _ _ (by decide) hlf h).symm
  have := joined_inj (fun w hwm => (hw w hwm).1) (by decide) hne (by simp) hj
  subst this
  refine ⟨?_, ?_⟩
  · rintro (⟨v, h1, h2⟩ | ⟨h1, _⟩)
    · cases v <;> revert h1 h2 <;> decide
    · revert h1; decide
  · rintro ⟨h1, _⟩; revert h1; decide

end Verif.Mc
