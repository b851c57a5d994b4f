import Verif.Glob.Model

/-!
C26.
-/

namespace Verif.Glob

theorem matches_nil {s : Bytes} : Matches [] s ↔ s = [] := by
  constructor
  · intro h; cases h; rfl
  · rintro rfl; exact .nil

theorem matches_lit {c : UInt8} {ts : List Tok} {s : Bytes} : Matches (.lit c :: ts) s ↔ ∃ s', s = c :: s' ∧ Matches ts s' := by
  constructor
  · intro h; cases h with | lit h => exact ⟨_, rfl, h⟩
  · rintro ⟨s', rfl, h⟩; exact .lit h

theorem matches_any {ts : List Tok} {s : Bytes} : Matches (.any :: ts) s ↔ ∃ x s', s = x :: s' ∧ Matches ts s' := by
  constructor
  · intro h; cases h with | any h => exact ⟨_, _, rfl, h⟩
  · rintro ⟨x, s', rfl, h⟩; exact .any h

theorem matches_star {ts : List Tok} {s : Bytes} :
    Matches (.star :: ts) s ↔ Matches ts s ∨ ∃ x s', s = x :: s' ∧ Matches (.star :: ts) s' := by
  constructor
  · intro h
    cases h with
    | @star pre _ s h =>
      cases pre with
      | nil => exact Or.inl h
      | cons x pre => exact Or.inr ⟨x, pre ++ s, rfl, .star h⟩
  · rintro (h | ⟨x, s', rfl, h⟩)
    · exact .star (pre := []) h
    · cases h with
      | @star pre _ s h => exact .star (pre := x :: pre) h

theorem matches_star_nil (s : Bytes) : Matches [.star] s := by
  have := Matches.star (pre := s) Matches.nil
  simpa using this

theorem matches_star_star {ts : List Tok} {s : Bytes} : Matches (.star :: .star :: ts) s ↔ Matches (.star :: ts) s := by
  constructor
  · intro h
    cases h with
    | @star pre _ s h =>
      cases h with
      | @star pre' _ s h =>
        have := Matches.star (pre := pre ++ pre') h
        simpa using this
  · intro h; exact .star (pre := []) h

/-- The matcher always ends. -/
theorem matchGo_terminates (fuel : Nat) (pat s : Bytes) (d : Nat) (hf : pat.length + s.length < fuel) :
    ∃ b, matchGo fuel pat s d = some b := by
  induction fuel generalizing pat s d with
  | zero => omega
  | succ fuel ih =>
    cases pat with
    | nil => exact ⟨_, rfl⟩
    | cons p ps =>
      unfold matchGo
      simp only [List.length_cons] at hf
      split
      · cases ps with
        | nil => exact ⟨_, rfl⟩
        | cons c ps' =>
          cases s with
          | nil => exact ⟨_, rfl⟩
          | cons x s' =>
            simp only [List.length_cons] at hf ⊢
            split
            · exact ⟨_, rfl⟩
            · exact ih ps' s' d (by omega)
      · split
        · cases ps with
          | nil => exact ⟨_, rfl⟩
          | cons q ps' =>
            simp only [List.length_cons] at hf ⊢
            split
            · exact ih _ s d (by simp only [List.length_cons]; omega)
            · split
              · exact ⟨_, rfl⟩
              · obtain ⟨b, hb⟩ := ih (q :: ps') s (d + 1) (by simp only [List.length_cons]; omega)
                rw [hb]
                simp only [Option.bind_some]
                cases b with
                | true => exact ⟨_, rfl⟩
                | false =>
                  cases s with
                  | nil => exact ⟨_, rfl⟩
                  | cons x s' => exact ih _ s' d (by simp only [List.length_cons] at hf ⊢; omega)
        · cases s with
          | nil => exact ⟨_, rfl⟩
          | cons x s' =>
            simp only [List.length_cons] at hf ⊢
            split
            · exact ⟨_, rfl⟩
            · exact ih ps s' d (by omega)

theorem toks_esc (c : UInt8) (ps : Bytes) : toks (92 :: c :: ps) = (toks ps).map (.lit c :: ·) := rfl
theorem toks_star (ps : Bytes) : toks (42 :: ps) = (toks ps).map (.star :: ·) := by cases ps <;> rfl
theorem toks_any (ps : Bytes) : toks (63 :: ps) = (toks ps).map (.any :: ·) := by cases ps <;> rfl
theorem toks_lit (c : UInt8) (ps : Bytes) (h1 : c ≠ 92) (h2 : c ≠ 42) (h3 : c ≠ 63) : toks (c :: ps) = (toks ps).map (.lit c :: ·) := by
  cases ps <;> simp [toks, h1, h2, h3]

theorem starGroups_tail_le (t : Tok) (ts : List Tok) : starGroups ts ≤ starGroups (t :: ts) := by
  cases t with
  | lit c => simp [starGroups]
  | any => simp [starGroups]
  | star =>
    cases ts with
    | nil => simp [starGroups]
    | cons u us =>
      cases u <;> simp [starGroups]

/-- The matcher against the specification, for patterns without an escaped question mark. -/
theorem matchGo_spec (fuel : Nat) (pat s : Bytes) (d : Nat) (b : Bool) (hb : matchGo fuel pat s d = some b) :
    (toks pat = none → b = false) ∧
    ∀ ts, toks pat = some ts → Tok.lit 63 ∉ ts → (b = true → Matches ts s) ∧ (d + starGroups ts ≤ 127 → Matches ts s → b = true) := by
  induction fuel generalizing pat s d b with
  | zero => simp [matchGo] at hb
  | succ fuel ih =>
    cases pat with
    | nil =>
      simp only [matchGo, Option.some.injEq] at hb
      subst hb
      refine ⟨by simp [toks], ?_⟩
      intro ts hts _
      simp only [toks, Option.some.injEq] at hts
      subst hts
      rw [matches_nil]
      simp
    | cons p ps =>
      unfold matchGo at hb
      by_cases hp : p = 92
      · subst hp
        rw [if_pos rfl] at hb
        cases ps with
        | nil =>
          simp only [Option.some.injEq] at hb
          subst hb
          exact ⟨fun _ => rfl, by simp [toks]⟩
        | cons c ps' =>
          rw [toks_esc]
          cases s with
          | nil =>
            simp only [Option.some.injEq] at hb
            subst hb
            refine ⟨fun _ => rfl, ?_⟩
            intro ts hts _
            obtain ⟨ts', _, rfl⟩ := Option.map_eq_some_iff.1 hts
            rw [matches_lit]
            simp
          | cons x s' =>
            simp only [] at hb
            split at hb
            · rename_i hc
              simp only [Option.some.injEq] at hb
              subst hb
              refine ⟨fun _ => rfl, ?_⟩
              intro ts hts _
              obtain ⟨ts', _, rfl⟩ := Option.map_eq_some_iff.1 hts
              rw [matches_lit]
              simp [hc.2]
            · rename_i hc
              obtain ⟨h1, h2⟩ := ih ps' s' d b hb
              refine ⟨fun hn => h1 (by simpa using hn), ?_⟩
              intro ts hts hq
              obtain ⟨ts', hts', rfl⟩ := Option.map_eq_some_iff.1 hts
              simp only [List.mem_cons, Tok.lit.injEq, not_or] at hq
              obtain ⟨h3, h4⟩ := h2 ts' hts' hq.2
              have hcx : x = c := by
                by_contra hne
                exact hc ⟨fun h => hq.1 h.symm, hne⟩
              subst hcx
              rw [matches_lit]
              constructor
              · intro hbt; exact ⟨s', rfl, h3 hbt⟩
              · rintro hd ⟨s'', he, hm⟩
                simp only [List.cons.injEq, true_and] at he
                subst he
                exact h4 (by simpa [starGroups] using hd) hm
      · rw [if_neg hp] at hb
        by_cases hs : p = 42
        · subst hs
          rw [if_pos rfl] at hb
          rw [toks_star]
          cases ps with
          | nil =>
            simp only [Option.some.injEq] at hb
            subst hb
            refine ⟨by simp [toks], ?_⟩
            intro ts hts _
            simp only [toks, Option.map_some, Option.some.injEq] at hts
            subst hts
            exact ⟨fun _ => matches_star_nil s, fun _ _ => rfl⟩
          | cons q ps' =>
            simp only [] at hb
            by_cases hq : q = 42
            · subst hq
              rw [if_pos rfl] at hb
              obtain ⟨h1, h2⟩ := ih _ s d b hb
              refine ⟨fun hn => h1 (by simpa using hn), ?_⟩
              intro ts hts hl
              obtain ⟨ts', hts', rfl⟩ := Option.map_eq_some_iff.1 hts
              have hts'' := hts'
              rw [toks_star] at hts''
              obtain ⟨us, _, rfl⟩ := Option.map_eq_some_iff.1 hts''
              obtain ⟨h3, h4⟩ := h2 _ hts' (fun hm => hl (by simp [hm]))
              rw [matches_star_star]
              exact ⟨h3, fun hd => h4 (by simpa [starGroups] using hd)⟩
            · rw [if_neg hq] at hb
              have htok : ∀ ts', toks (q :: ps') = some ts' → ∃ t us, ts' = t :: us ∧ t ≠ .star := by
                intro ts' h
                by_cases h1 : q = 92
                · subst h1
                  cases ps' with
                  | nil => simp [toks] at h
                  | cons c ps'' =>
                    rw [toks_esc] at h
                    obtain ⟨us, _, rfl⟩ := Option.map_eq_some_iff.1 h
                    exact ⟨_, us, rfl, by simp⟩
                · by_cases h2 : q = 63
                  · subst h2
                    rw [toks_any] at h
                    obtain ⟨us, _, rfl⟩ := Option.map_eq_some_iff.1 h
                    exact ⟨_, us, rfl, by simp⟩
                  · rw [toks_lit q ps' h1 hq h2] at h
                    obtain ⟨us, _, rfl⟩ := Option.map_eq_some_iff.1 h
                    exact ⟨_, us, rfl, by simp⟩
              have hgr : ∀ ts', toks (q :: ps') = some ts' → starGroups (.star :: ts') = 1 + starGroups ts' := by
                intro ts' h
                obtain ⟨t, us, rfl, ht⟩ := htok ts' h
                cases t with
                | star => exact absurd rfl ht
                | lit c => rfl
                | any => rfl
              split at hb
              · rename_i hd
                simp only [Option.some.injEq] at hb
                subst hb
                refine ⟨fun _ => rfl, ?_⟩
                intro ts hts _
                obtain ⟨ts', hts', rfl⟩ := Option.map_eq_some_iff.1 hts
                refine ⟨by simp, ?_⟩
                intro hle
                rw [hgr ts' hts'] at hle
                omega
              · obtain ⟨r, hr, hb⟩ := Option.bind_eq_some_iff.1 hb
                obtain ⟨h1, h2⟩ := ih (q :: ps') s (d + 1) r hr
                cases r with
                | true =>
                  simp only [if_true, Option.some.injEq] at hb
                  subst hb
                  refine ⟨?_, ?_⟩
                  · intro hn
                    have := h1 (by simpa using hn)
                    simp at this
                  · intro ts hts hl
                    obtain ⟨ts', hts', rfl⟩ := Option.map_eq_some_iff.1 hts
                    obtain ⟨h3, _⟩ := h2 ts' hts' (fun hm => hl (by simp [hm]))
                    exact ⟨fun _ => matches_star.2 (Or.inl (h3 rfl)), fun _ _ => rfl⟩
                | false =>
                  simp only [Bool.false_eq_true, if_false] at hb
                  cases s with
                  | nil =>
                    simp only [Option.some.injEq] at hb
                    subst hb
                    refine ⟨fun _ => rfl, ?_⟩
                    intro ts hts hl
                    obtain ⟨ts', hts', rfl⟩ := Option.map_eq_some_iff.1 hts
                    obtain ⟨_, h4⟩ := h2 ts' hts' (fun hm => hl (by simp [hm]))
                    refine ⟨by simp, ?_⟩
                    intro hd hm
                    rw [hgr ts' hts'] at hd
                    rcases matches_star.1 hm with hm | ⟨x, s', hx, _⟩
                    · exact h4 (by omega) hm
                    · simp at hx
                  | cons x s' =>
                    simp only [] at hb
                    obtain ⟨h5, h6⟩ := ih (42 :: q :: ps') s' d b hb
                    refine ⟨fun hn => h5 (by rw [toks_star]; exact hn), ?_⟩
                    intro ts hts hl
                    have hts0 : toks (42 :: q :: ps') = some ts := by rw [toks_star]; exact hts
                    obtain ⟨ts', hts', rfl⟩ := Option.map_eq_some_iff.1 hts
                    obtain ⟨_, h4⟩ := h2 ts' hts' (fun hm => hl (by simp [hm]))
                    obtain ⟨h7, h8⟩ := h6 _ hts0 hl
                    refine ⟨fun hbt => matches_star.2 (Or.inr ⟨x, s', rfl, h7 hbt⟩), ?_⟩
                    intro hd hm
                    rcases matches_star.1 hm with hm | ⟨y, s'', hx, hm⟩
                    · have := h4 (by rw [hgr ts' hts'] at hd; omega) hm
                      simp at this
                    · simp only [List.cons.injEq] at hx
                      obtain ⟨_, rfl⟩ := hx
                      exact h8 hd hm
        · rw [if_neg hs] at hb
          by_cases hq : p = 63
          · subst hq
            rw [toks_any]
            cases s with
            | nil =>
              simp only [Option.some.injEq] at hb
              subst hb
              refine ⟨fun _ => rfl, ?_⟩
              intro ts hts _
              obtain ⟨ts', _, rfl⟩ := Option.map_eq_some_iff.1 hts
              rw [matches_any]
              simp
            | cons x s' =>
              simp only [ne_eq, not_true_eq_false, false_and, if_false] at hb
              obtain ⟨h1, h2⟩ := ih ps s' d b hb
              refine ⟨fun hn => h1 (by simpa using hn), ?_⟩
              intro ts hts hl
              obtain ⟨ts', hts', rfl⟩ := Option.map_eq_some_iff.1 hts
              obtain ⟨h3, h4⟩ := h2 ts' hts' (fun hm => hl (by simp [hm]))
              rw [matches_any]
              constructor
              · intro hbt; exact ⟨x, s', rfl, h3 hbt⟩
              · rintro hd ⟨y, s'', he, hm⟩
                simp only [List.cons.injEq] at he
                obtain ⟨_, rfl⟩ := he
                exact h4 (by simpa [starGroups] using hd) hm
          · rw [toks_lit p ps hp hs hq]
            cases s with
            | nil =>
              simp only [Option.some.injEq] at hb
              subst hb
              refine ⟨fun _ => rfl, ?_⟩
              intro ts hts _
              obtain ⟨ts', _, rfl⟩ := Option.map_eq_some_iff.1 hts
              rw [matches_lit]
              simp
            | cons x s' =>
              simp only [] at hb
              split at hb
              · rename_i hc
                simp only [Option.some.injEq] at hb
                subst hb
                refine ⟨fun _ => rfl, ?_⟩
                intro ts hts _
                obtain ⟨ts', _, rfl⟩ := Option.map_eq_some_iff.1 hts
                rw [matches_lit]
                simp [hc.2]
              · rename_i hc
                have hcx : x = p := by
                  by_contra hne
                  exact hc ⟨hq, hne⟩
                subst hcx
                obtain ⟨h1, h2⟩ := ih ps s' d b hb
                refine ⟨fun hn => h1 (by simpa using hn), ?_⟩
                intro ts hts hl
                obtain ⟨ts', hts', rfl⟩ := Option.map_eq_some_iff.1 hts
                obtain ⟨h3, h4⟩ := h2 ts' hts' (fun hm => hl (by simp [hm]))
                rw [matches_lit]
                constructor
                · intro hbt; exact ⟨s', rfl, h3 hbt⟩
                · rintro hd ⟨s'', he, hm⟩
                  simp only [List.cons.injEq, true_and] at he
                  subst he
                  exact h4 (by simpa [starGroups] using hd) hm

/-- **C26** (`_partial`: no escaped question mark, at most 127 groups of stars before the last part; otherwise see
`escaped_question_mark_matches_anything` and `many_stars_never_match`).  The matcher ends and answers exactly according to
the meaning of the pattern; a pattern ending in a lone backslash matches nothing. -/
theorem glob_exact_partial (pat s : Bytes) : ∃ b, globMatch pat s = some b ∧
    (toks pat = none → b = false) ∧
    ∀ ts, toks pat = some ts → Tok.lit 63 ∉ ts → starGroups ts ≤ 127 → (b = true ↔ Matches ts s) := by
  obtain ⟨b, hb⟩ := matchGo_terminates (pat.length + s.length + 1) pat s 0 (by omega)
  obtain ⟨h1, h2⟩ := matchGo_spec _ _ _ _ _ hb
  refine ⟨b, hb, h1, ?_⟩
  intro ts hts hq hg
  obtain ⟨h3, h4⟩ := h2 ts hts hq
  exact ⟨h3, h4 (by omega)⟩

/-- A positive answer is right whatever the number of stars (no escaped question mark). -/
theorem glob_sound_partial {pat s : Bytes} {ts : List Tok} (h : globMatch pat s = some true) (ht : toks pat = some ts)
    (hq : Tok.lit 63 ∉ ts) : Matches ts s :=
  ((matchGo_spec _ _ _ _ _ h).2 ts ht hq).1 rfl

/-- **C26, negation.**  The pattern `\?`, which means a literal question mark, matches `a`. -/
theorem escaped_question_mark_matches_anything :
    globMatch [92, 63] [97] = some true ∧ toks [92, 63] = some [.lit 63] ∧ ¬ Matches [.lit 63] [97] := by
  refine ⟨by decide, by decide, ?_⟩
  rw [matches_lit]
  simp

namespace Example

/-- The bytes 128 to 255, each after a star. -/
def stars : Bytes := (List.range 128).flatMap fun i => [42, UInt8.ofNat (128 + i)]
def starsText : Bytes := (List.range 128).map fun i => UInt8.ofNat (128 + i)
def starsToks : List Tok := (List.range 128).flatMap fun i => [.star, .lit (UInt8.ofNat (128 + i))]

theorem flat_matches (l : List UInt8) : Matches (l.flatMap fun c => [.star, .lit c]) l := by
  induction l with
  | nil => exact .nil
  | cons c l ih => exact .star (pre := []) (.lit ih)

end Example

/-- **C26, negation.**  With 128 stars the matcher gives up: a pattern that matches by the rules is refused. -/
theorem many_stars_never_match :
    globMatch Example.stars Example.starsText = some false ∧ toks Example.stars = some Example.starsToks ∧
    Matches Example.starsToks Example.starsText := by
  refine ⟨by decide +kernel, by decide +kernel, ?_⟩
  have := Example.flat_matches Example.starsText
  unfold Example.starsText at this
  rw [List.flatMap_map] at this
  exact this

/-- `a*\*?` against `axx*b` meets the hypotheses of `glob_exact_partial`. -/
example : toks [97, 42, 92, 42, 63] = some [.lit 97, .star, .lit 42, .any] ∧
    Tok.lit 63 ∉ [Tok.lit 97, .star, .lit 42, .any] ∧ starGroups [.lit 97, .star, .lit 42, .any] ≤ 127 ∧
    globMatch [97, 42, 92, 42, 63] [97, 120, 120, 42, 98] = some true := by decide +kernel

end Verif.Glob
