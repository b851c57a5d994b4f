import Mathlib.Tactic.Common
import Verif.Resp.Props

/-!
C57: the RESP parser and the end of the received data.
-/

namespace Verif.Resp

open Verif.Num

/-- **C57, negation.**  `*` CR LF as all that has been received: `strtoll` skips CR LF as blanks and goes on reading behind them. -/
theorem empty_number_reads_outside : parseResp [42, 13, 10] = .ub := by decide +kernel

/-- A number field that consists of nothing but blanks. -/
def BlankNumber (s : Bytes) : Prop := ∃ g r, s = g ++ 13 :: 10 :: r ∧ ∀ b ∈ g, b ∈ ([32, 9, 10, 11, 12, 13] : Bytes)

theorem readRespNum_ub {s : Bytes} {min max : Int} (h : readRespNum s min max = .ub) : BlankNumber s := by
  unfold readRespNum at h
  cases hp : s.findIdx? (· = 13) with
  | none =>
    simp only [hp] at h
    split at h <;> simp at h
  | some p =>
    simp only [hp] at h
    by_cases h1 : p + 1 = s.length
    · rw [if_pos h1] at h; simp at h
    rw [if_neg h1] at h
    by_cases h2 : s[p + 1]? ≠ some 10
    · rw [if_pos h2] at h; simp at h
    rw [if_neg h2] at h
    have h2 : s[p + 1]? = some 10 := by simpa using h2
    rw [List.findIdx?_eq_some_iff_getElem] at hp
    obtain ⟨hpl, hp1, hp2⟩ := hp
    have hp1 : s[p] = 13 := by simpa using hp1
    have hub : readNum s p min max = .ub := by
      cases hr : readNum s p min max <;> rw [hr] at h <;> simp [PR.bind] at h
    have hrest : (strtoScan s).2.2 = [] := by
      unfold readNum at hub
      by_contra hne
      revert hub
      generalize strtoScan s = x at hne
      obtain ⟨neg, ds, rest⟩ := x
      simp only [] at hne ⊢
      rw [if_neg hne]
      repeat' split
      all_goals simp
    have hsplit : s = s.take p ++ 13 :: 10 :: s.drop (p + 2) := by
      have hl2 : p + 1 < s.length := by omega
      have h10 : s[p + 1] = 10 := by rw [List.getElem?_eq_getElem hl2] at h2; simpa using h2
      conv_lhs => rw [← List.take_append_drop p s, List.drop_eq_getElem_cons hpl, hp1, List.drop_eq_getElem_cons hl2, h10]
    refine ⟨s.take p, s.drop (p + 2), hsplit, ?_⟩
    obtain ⟨ws, sg, he, hws, hds, hsg⟩ := strtoScan_sound (s := s) (neg := (strtoScan s).1) (ds := (strtoScan s).2.1) (rest := [])
      (by rw [← hrest])
    rw [List.append_nil, List.append_assoc] at he
    have hlt : p < ws.length := by
      by_contra hge
      have hmem : (13 : UInt8) ∈ sg ++ (strtoScan s).2.1 := by
        have hpl' : p < (ws ++ (sg ++ (strtoScan s).2.1)).length := by rw [← he]; exact hpl
        have : (ws ++ (sg ++ (strtoScan s).2.1))[p] = 13 := by rw [← hp1]; congr 1; exact he.symm
        rw [List.getElem_append_right (by omega)] at this
        rw [← this]
        exact List.getElem_mem _
      rcases List.mem_append.1 hmem with hm | hm
      · rcases hsg with ⟨_, rfl | rfl⟩ | ⟨_, rfl⟩ <;> simp at hm
      · exact absurd (hds _ hm) (by decide)
    intro b hb
    rw [← isSpace_iff]
    refine hws b ?_
    rw [he, List.take_append_of_le_length (by omega)] at hb
    exact List.mem_of_mem_take hb

theorem readArgs_ub {n : Nat} {s : Bytes} (h : readArgs n s = .ub) : ∃ a b, s = a ++ 36 :: b ∧ BlankNumber b := by
  induction n generalizing s with
  | zero => simp [readArgs] at h
  | succ n ih =>
    rw [readArgs.eq_def] at h
    simp only [] at h
    cases s with
    | nil => simp at h
    | cons b s =>
      simp only [] at h
      by_cases hb : b ≠ 36
      · rw [if_pos hb] at h; simp at h
      rw [if_neg hb] at h
      obtain rfl : b = 36 := by simpa using hb
      by_cases hs : s = []
      · rw [if_pos hs] at h; simp at h
      rw [if_neg hs] at h
      cases hr : readRespNum s 0 maxArgSz with
      | ub => exact ⟨[], s, rfl, readRespNum_ub hr⟩
      | more => rw [hr] at h; simp [PR.bind] at h
      | err => rw [hr] at h; simp [PR.bind] at h
      | got x =>
        obtain ⟨len, s'⟩ := x
        rw [hr] at h
        simp only [PR.bind] at h
        have hsuf : s' <:+ s := by
          unfold readRespNum at hr
          split at hr
          · split at hr <;> simp at hr
          · split at hr
            · simp at hr
            · split at hr
              · simp at hr
              · rename_i p _ _ _
                cases hrn : readNum s p 0 maxArgSz with
                | got v =>
                  rw [hrn] at hr
                  simp only [PR.bind, PR.got.injEq, Prod.mk.injEq] at hr
                  rw [← hr.2]
                  exact List.drop_suffix _ _
                | more => rw [hrn] at hr; simp [PR.bind] at hr
                | err => rw [hrn] at hr; simp [PR.bind] at hr
                | ub => rw [hrn] at hr; simp [PR.bind] at hr
        split at h
        · simp at h
        · have hub : readArgs n (s'.drop (len.toNat + 2)) = .ub := by
            cases hra : readArgs n (s'.drop (len.toNat + 2)) <;> rw [hra] at h <;> simp at h
          obtain ⟨a, b, hab, hbl⟩ := ih hub
          obtain ⟨x, hx⟩ := (List.drop_suffix (len.toNat + 2) s').trans hsuf
          exact ⟨36 :: (x ++ a), b, by rw [← hx, hab]; simp, hbl⟩

/-- **C57** (`_partial`: unless a number field is blank).  For every received data in which no `*` or `$` is followed by a blank number
field, parsing does not leave the data. -/
theorem resp_parse_in_bounds_partial (s : Bytes) (h : ∀ a b, s = a ++ b → (a.getLast? = some 42 ∨ a.getLast? = some 36) → ¬ BlankNumber b) :
    parseResp s ≠ .ub := by
  intro hub
  rw [parseResp.eq_def] at hub
  cases s with
  | nil => simp at hub
  | cons b r =>
    simp only [] at hub
    by_cases hb : b ≠ 42
    · rw [if_pos hb] at hub; simp at hub
    rw [if_neg hb] at hub
    obtain rfl : b = 42 := by simpa using hb
    by_cases hs : r = []
    · rw [if_pos hs] at hub; simp at hub
    rw [if_neg hs] at hub
    cases hr : readRespNum r (-(2 ^ 63)) maxArgs with
    | ub => exact h [42] r rfl (Or.inl rfl) (readRespNum_ub hr)
    | more => rw [hr] at hub; simp [PR.bind] at hub
    | err => rw [hr] at hub; simp [PR.bind] at hub
    | got x =>
      obtain ⟨n, r'⟩ := x
      rw [hr] at hub
      simp only [PR.bind] at hub
      have hra : readArgs n.toNat r' = .ub := by
        cases hra : readArgs n.toNat r' <;> rw [hra] at hub <;> simp at hub
      obtain ⟨a, b, hab, hbl⟩ := readArgs_ub hra
      have hsuf : r' <:+ r := by
        unfold readRespNum at hr
        split at hr
        · split at hr <;> simp at hr
        · split at hr
          · simp at hr
          · split at hr
            · simp at hr
            · rename_i p _ _ _
              cases hrn : readNum r p (-(2 ^ 63)) maxArgs with
              | got v =>
                rw [hrn] at hr
                simp only [PR.bind, PR.got.injEq, Prod.mk.injEq] at hr
                rw [← hr.2]
                exact List.drop_suffix _ _
              | more => rw [hrn] at hr; simp [PR.bind] at hr
              | err => rw [hrn] at hr; simp [PR.bind] at hr
              | ub => rw [hrn] at hr; simp [PR.bind] at hr
      obtain ⟨x, hx⟩ := hsuf
      refine h (42 :: x ++ a ++ [36]) b (by rw [← hx, hab]; simp) (Or.inr List.getLast?_concat) hbl

/-- Hypothesis of `resp_parse_in_bounds_partial`: an incomplete command with a malformed number. -/
example : ∀ a b : Bytes, ([42, 45, 13, 10, 36] : Bytes) = a ++ b → (a.getLast? = some 42 ∨ a.getLast? = some 36) → ¬ BlankNumber b := by
  rintro a b he ha ⟨g, r, rfl, hg⟩
  have h5 := congrArg List.length he
  simp only [List.length_append, List.length_cons, List.length_nil] at h5
  match a, g with
  | [], _ => simp at ha
  | [x], [] => simp at he
  | [x], y :: g =>
    simp at he
    have := hg y (by simp)
    rw [← he.2.1] at this
    simp at this
  | [x, y], _ => simp at he; obtain ⟨rfl, rfl, _⟩ := he; simp at ha
  | [x, y, z], g => simp at he; obtain ⟨rfl, rfl, rfl, _⟩ := he; simp at ha
  | x :: y :: z :: w :: a, _ => simp at h5; omega

end Verif.Resp
