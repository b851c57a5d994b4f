import Mathlib.Tactic.Common
import Verif.Resp.Props

/-!
C36: inline commands.
-/

namespace Verif.Resp

open Verif.Num

/-! ### Specification -/

/-- The characters that separate words: blank, tab, vertical tab, form feed, CR; and LF. -/
def Blank (b : UInt8) : Prop := b ∈ ([32, 9, 11, 12, 13, 10] : Bytes)

/-- A word: non-empty, without blanks and quotes, of acceptable length. -/
def Word (w : Bytes) : Prop := w ≠ [] ∧ (∀ b ∈ w, ¬ Blank b ∧ b ≠ 34 ∧ b ≠ 39) ∧ w.length ≤ 536870912

/-- The space before or after a word: blanks but no LF. -/
def Gap (g : Bytes) : Prop := ∀ b ∈ g, Blank b ∧ b ≠ 10

/-- A line with the given words: space, words with space between them, space, LF. -/
inductive Line : List Bytes → Bytes → Prop
  | nil {g : Bytes} : Gap g → Line [] (g ++ [10])
  | cons {g w : Bytes} {b : UInt8} {ws : List Bytes} {r : Bytes} : Gap g → Word w → Blank b → Line ws (b :: r) →
      Line (w :: ws) (g ++ (w ++ (b :: r)))

/-! ### Proofs -/

theorem blank_iff (b : UInt8) : Blank b ↔ isSpace b = true := by
  rw [isSpace_iff]
  unfold Blank
  simp only [List.mem_cons, List.not_mem_nil, or_false]
  tauto

/-- Reading the rest of a word. -/
theorem telnet_word (w : Bytes) (hw : ∀ b ∈ w, ¬ Blank b ∧ b ≠ 34 ∧ b ≠ 39) (r : Bytes) (i : Nat) (as : List Bytes) (a : Bytes)
    (hl : a.length + w.length ≤ 536870912) :
    telnetLoop (w ++ r) i ⟨as, a, true, 0⟩ = telnetLoop r (i + w.length) ⟨as, a ++ w, true, 0⟩ := by
  induction w generalizing i a with
  | nil => simp
  | cons c w ih =>
    obtain ⟨h1, h2, h3⟩ := hw c (by simp)
    simp only [List.length_cons] at hl
    rw [List.cons_append, telnetLoop.eq_def]
    simp only [if_true, ne_eq, not_true_eq_false, if_false]
    rw [if_neg (by simp [h2, h3])]
    rw [if_neg (by rw [← blank_iff]; exact h1)]
    unfold Tel.add maxArgSz
    simp only []
    rw [if_neg (by omega)]
    simp only []
    rw [ih (fun b hb => hw b (by simp [hb])) _ _ (by simp; omega)]
    congr 1
    · simp; omega
    · simp

/-- Skipping space. -/
theorem telnet_gap (g : Bytes) (hg : Gap g) (r : Bytes) (i : Nat) (as : List Bytes) (q : UInt8) :
    telnetLoop (g ++ r) i ⟨as, [], false, q⟩ = telnetLoop r (i + g.length) ⟨as, [], false, q⟩ := by
  induction g generalizing i with
  | nil => simp
  | cons c g ih =>
    obtain ⟨h1, h2⟩ := hg c (by simp)
    rw [List.cons_append, telnetLoop.eq_def]
    simp only [if_false, Bool.false_eq_true]
    rw [if_neg h2, if_pos ((blank_iff c).1 h1), ih (fun b hb => hg b (by simp [hb]))]
    congr 1
    simp; omega

theorem telnet_full_word {w : Bytes} (hw : Word w) (r : Bytes) (i : Nat) (as : List Bytes) (q : UInt8) :
    telnetLoop (w ++ r) i ⟨as, [], false, q⟩ = telnetLoop r (i + w.length) ⟨as, w, true, 0⟩ := by
  obtain ⟨hne, hw2, hlen⟩ := hw
  obtain ⟨c, w', rfl⟩ : ∃ c w', w = c :: w' := List.exists_cons_of_ne_nil hne
  obtain ⟨c1, c2, c3⟩ := hw2 c (by simp)
  simp only [List.length_cons] at hlen
  rw [List.cons_append, telnetLoop.eq_def]
  simp only [if_false, Bool.false_eq_true]
  rw [if_neg (by rintro rfl; exact c1 (by unfold Blank; decide)), if_neg (by rw [← blank_iff]; exact c1), if_neg (by simp [c2, c3])]
  unfold Tel.add maxArgSz
  simp only [List.length_nil]
  rw [if_neg (by omega)]
  simp only [List.nil_append]
  rw [telnet_word w' (fun b hb => hw2 b (by simp [hb])) _ _ _ _ (by simp; omega)]
  congr 1
  simp; omega

theorem telnet_end {b : UInt8} (hb : Blank b) (r : Bytes) (i : Nat) (as : List Bytes) (w : Bytes) (hn : as.length + 1 ≤ 100000) :
    telnetLoop (b :: r) i ⟨as, w, true, 0⟩ = telnetLoop (b :: r) i ⟨as ++ [w], [], false, 0⟩ := by
  rw [telnetLoop.eq_def, telnetLoop.eq_def]
  simp only [if_true, ne_eq, not_true_eq_false, if_false, Bool.false_eq_true]
  have hb' := (blank_iff b).1 hb
  rw [if_neg (by rintro (rfl | rfl) <;> simp [Blank] at hb), if_pos hb']
  unfold Tel.push maxArgs
  simp only []
  rw [if_neg (by omega)]
  simp only []
  by_cases h10 : b = 10
  · simp [h10]
  · simp [h10, hb']

theorem telnet_line {ws : List Bytes} {l : Bytes} (h : Line ws l) (rest : Bytes) (i : Nat) (as : List Bytes) (q : UInt8)
    (hn : as.length + ws.length ≤ 100000) : telnetLoop (l ++ rest) i ⟨as, [], false, q⟩ = .got (as ++ ws, i + l.length) := by
  induction h generalizing i as q with
  | @nil g hg =>
    rw [List.append_assoc, telnet_gap g hg, List.singleton_append, telnetLoop.eq_def]
    simp [Nat.add_assoc]
  | @cons g w b ws r hg hw hb hl ih =>
    simp only [List.length_cons] at hn
    have h1 : (g ++ (w ++ b :: r)) ++ rest = g ++ (w ++ (b :: (r ++ rest))) := by simp
    rw [h1, telnet_gap g hg, telnet_full_word hw, telnet_end hb _ _ _ _ (by omega), ← List.cons_append, ih _ _ _ (by simp; omega)]
    simp only [List.append_assoc, List.singleton_append, List.length_append, List.length_cons]
    congr 2
    omega

/-- Reading a part of a word. -/
theorem telnet_part {w p : Bytes} (hw : Word w) (hp : p <+: w) (i : Nat) (as : List Bytes) (q : UInt8) :
    telnetLoop p i ⟨as, [], false, q⟩ = .more := by
  by_cases hne : p = []
  · subst hne; rw [telnetLoop.eq_def]
  · have hpw : Word p := ⟨hne, fun b hb => hw.2.1 b (hp.subset hb), Nat.le_trans hp.length_le hw.2.2⟩
    have := telnet_full_word hpw [] i as q
    rw [List.append_nil] at this
    rw [this, telnetLoop.eq_def]

theorem prefix_append_cases {p a b : Bytes} (h : p <+: a ++ b) : p <+: a ∨ ∃ p', p = a ++ p' ∧ p' <+: b := by
  by_cases hl : p.length ≤ a.length
  · exact Or.inl (List.prefix_of_prefix_length_le h (List.prefix_append a b) hl)
  · obtain ⟨p', rfl⟩ := List.prefix_of_prefix_length_le (List.prefix_append a b) h (by omega)
    exact Or.inr ⟨p', rfl, (List.prefix_append_right_inj a).1 h⟩

theorem telnet_cut {ws : List Bytes} {l : Bytes} (h : Line ws l) {p : Bytes} (hp : p <+: l) (hne : p ≠ l) (i : Nat) (as : List Bytes)
    (q : UInt8) (hn : as.length + ws.length ≤ 100000) : telnetLoop p i ⟨as, [], false, q⟩ = .more := by
  have hgap : ∀ {g p : Bytes}, Gap g → p <+: g → ∀ i as q, telnetLoop p i ⟨as, [], false, q⟩ = .more := by
    intro g p hg hp i as q
    have := telnet_gap p (fun b hb => hg b (hp.subset hb)) [] i as q
    rw [List.append_nil] at this
    rw [this, telnetLoop.eq_def]
  induction h generalizing p i as q with
  | @nil g hg =>
    rcases prefix_append_cases hp with hp | ⟨p', rfl, hp'⟩
    · exact hgap hg hp _ _ _
    · cases p' with
      | nil => rw [List.append_nil]; exact hgap hg (List.prefix_refl g) _ _ _
      | cons c p' =>
        exfalso
        have hl := hp'.length_le
        simp only [List.length_cons, List.length_nil] at hl
        have : c :: p' = [10] := hp'.eq_of_length (by simp only [List.length_cons, List.length_nil]; omega)
        exact hne (by rw [this])
  | @cons g w b ws r hg hw hb hl ih =>
    simp only [List.length_cons] at hn
    rcases prefix_append_cases hp with hp | ⟨p', rfl, hp'⟩
    · exact hgap hg hp _ _ _
    rw [telnet_gap g hg]
    clear hp
    rcases prefix_append_cases hp' with hp | ⟨p'', rfl, hp⟩
    · exact telnet_part hw hp _ _ _
    rw [telnet_full_word hw]
    cases p'' with
    | nil => rw [telnetLoop.eq_def]
    | cons c p'' =>
      obtain rfl : c = b := by
        obtain ⟨x, hx⟩ := hp
        simp at hx
        exact hx.1
      rw [telnet_end hb _ _ _ _ (by omega)]
      exact ih hp (by rintro h; exact hne (by rw [h])) _ _ _ (by simp; omega)

/-- **C36.**  A line of words parses into exactly these words and uses up exactly the line, whatever follows. -/
theorem inline_parse_exact {ws : List Bytes} {l : Bytes} (h : Line ws l) (hn : ws.length ≤ 100000) (rest : Bytes) :
    parseTelnet (l ++ rest) = .got (ws, l.length) := by
  unfold parseTelnet
  rw [telnet_line h rest 0 [] 0 (by simpa using hn)]
  simp

/-- **C36.**  Without LF nothing is executed, whatever the bytes are. -/
theorem inline_incomplete_not_executed (s : Bytes) (h : 10 ∉ s) : ∀ r, parseTelnet s ≠ .got r := by
  have key : ∀ (n : Nat) (s : Bytes), s.length ≤ n → 10 ∉ s → ∀ i t r, telnetLoop s i t ≠ .got r := by
    intro n
    induction n with
    | zero =>
      intro s hs _ i t r
      have : s = [] := List.length_eq_zero_iff.1 (by omega)
      subst this
      simp [telnetLoop]
    | succ n ih =>
      intro s hs h10 i t r
      cases s with
      | nil => simp [telnetLoop]
      | cons c s =>
        simp only [List.mem_cons, not_or] at h10
        simp only [List.length_cons] at hs
        have hrec := ih s (by omega) h10.2
        have hc : ¬ c = 10 := fun h => h10.1 h.symm
        rw [telnetLoop.eq_def]
        simp only [hc, if_false]
        split
        · split
          · split
            · split
              · simp
              · split
                · simp
                · rename_i c' s'
                  have h10' : ¬ c' = 10 := by rintro rfl; simp at h10
                  rw [if_neg h10']
                  split
                  · simp
                  · simp only [List.length_cons] at hs
                    exact ih s' (by omega) (fun hm => h10.2 (by simp [hm])) _ _ _
            · split
              · split
                · simp
                · rename_i c' s'
                  split
                  · simp
                  · simp only [List.length_cons] at hs
                    exact ih s' (by omega) (fun hm => h10.2 (by simp [hm])) _ _ _
              · split
                · simp
                · exact hrec _ _ _
          · split
            · exact hrec _ _ _
            · split
              · split
                · simp
                · exact hrec _ _ _
              · split
                · simp
                · exact hrec _ _ _
        · split
          · exact hrec _ _ _
          · split
            · exact hrec _ _ _
            · split
              · simp
              · exact hrec _ _ _
  exact key s.length s (Nat.le_refl _) h _ _

/-! ### Chunks -/

/-- A request on a RESP connection: an encoded command, or an inline command that does not start with `*`. -/
def Request (as : List Bytes) (w : Bytes) : Prop :=
  Enc as w ∨ (Line as w ∧ as.length ≤ 100000 ∧ w.head? ≠ some 42)

theorem line_ne_nil {ws : List Bytes} {l : Bytes} (h : Line ws l) : l ≠ [] := by
  cases h <;> simp

theorem request_framed {as : List Bytes} {w : Bytes} (h : Request as w) : Framed parseCommandResp as w := by
  rcases h with h | ⟨h, hn, hs⟩
  · exact enc_framed h
  · have hne := line_ne_nil h
    obtain ⟨b, r, rfl⟩ := List.exists_cons_of_ne_nil hne
    refine ⟨hne, fun rest => ?_, fun p h1 h2 h3 => ?_⟩
    · unfold parseCommandResp
      rw [if_neg (by simpa using hs)]
      exact inline_parse_exact h hn rest
    · unfold parseCommandResp
      rw [if_neg (by rw [head_prefix h1 h3]; simpa using hs)]
      exact telnet_cut h h1 h2 _ _ _ (by simpa using hn)

/-- **C56** (`_partial`: only on a connection whose protocol is already known to be RESP).  Encoded and inline commands may be mixed and may
arrive in any chunks: exactly the complete ones have been executed, in order. -/
theorem inline_chunking_partial {σ : Type} (exec : Exec (List Bytes) σ) (onErr : σ → σ) {cs : List (List Bytes)} {ws : List Bytes}
    (h : List.Forall₂ Request cs ws) (chunks : List Bytes) (hp : chunks.flatten <+: ws.flatten) (st : σ)
    (others : Proto → Bytes → PR (List Bytes × Nat)) :
    ∃ c k tail, feed (fun p => if p = .resp then parseCommandResp else others p) (execResp exec) onErr ⟨[], .resp, false, st⟩ chunks =
        .got c ∧
      Received ws chunks.flatten k tail ∧ (c.st, c.closed) = runAll (execResp exec) (cs.take k) st ∧
      (c.closed = false → c.packet = tail) :=
  stream_chunking (p := .resp) (by simp) _ (execResp exec) onErr (h.imp fun _ _ hc => by simpa using request_framed hc) chunks hp st .resp
    (Or.inl rfl)

/-- **C56, negation.**  The inline command `PING` in one piece is executed; in two pieces the new connection is closed with an error. -/
theorem split_inline_rejected {σ : Type} (exec : Exec (List Bytes) σ) (onErr : σ → σ) (st : σ)
    (others : Proto → Bytes → PR (List Bytes × Nat)) :
    Line [[80, 73, 78, 71]] [80, 73, 78, 71, 13, 10] ∧
      (∃ c, feed (fun p => if p = .resp then parseCommandResp else others p) (execResp exec) onErr (newConn st)
        [[80, 73, 78, 71, 13, 10]] = .got c ∧ c.st = (exec [[80, 73, 78, 71]] st).1) ∧
      (∃ c, feed (fun p => if p = .resp then parseCommandResp else others p) (execResp exec) onErr (newConn st)
        [[80, 73], [78, 71, 13, 10]] = .got c ∧ c.st = onErr st ∧ c.closed = true) := by
  have hline : Line [[80, 73, 78, 71]] [80, 73, 78, 71, 13, 10] := by
    refine Line.cons (g := []) (w := [80, 73, 78, 71]) (b := 13) (r := [10]) (by simp [Gap]) ⟨by simp, ?_, by simp⟩ (by simp [Blank]) ?_
    · intro b hb
      unfold Blank
      revert b
      decide
    · exact Line.nil (g := [13]) (by unfold Gap Blank; decide)
  refine ⟨hline, ?_, ?_⟩
  · have hs : sniff [80, 73, 78, 71, 13, 10] = .got (some .resp) := by decide +kernel
    have hp := (request_framed (Or.inr ⟨hline, by simp, by simp⟩)).2.1 []
    simp only [List.append_nil] at hp
    unfold feed evdata newConn
    simp only [Bool.false_eq_true, if_false, List.nil_append, if_true]
    rw [hs]
    simp only [PR.bind, if_true, List.length_cons, List.length_nil]
    rw [drain]
    simp only [hp]
    by_cases hc : (exec [[80, 73, 78, 71]] st).2 = true
    · refine ⟨_, by simp [execResp, hc, feed]; rfl, rfl⟩
    · refine ⟨_, by simp [execResp, hc, feed, drain]; rfl, rfl⟩
  · have hs : sniff [80, 73] = .got none := by decide +kernel
    unfold feed evdata newConn
    simp only [Bool.false_eq_true, if_false, List.nil_append, if_true]
    rw [hs]
    refine ⟨_, by simp [PR.bind, feed, evdata]; rfl, rfl, rfl⟩

/-! ### Concrete cases -/

/-- Hypotheses of `inline_parse_exact`: ` GET  k` CR LF. -/
example : Line [[71, 69, 84], [107]] [32, 71, 69, 84, 32, 32, 107, 13, 10] ∧ (2 : Nat) ≤ 100000 := by
  refine ⟨?_, by decide⟩
  refine Line.cons (g := [32]) (w := [71, 69, 84]) (b := 32) (r := [32, 107, 13, 10]) (by unfold Gap Blank; decide)
    ⟨by simp, by unfold Blank; decide, by simp⟩ (by simp [Blank]) ?_
  refine Line.cons (g := [32, 32]) (w := [107]) (b := 13) (r := [10]) (by unfold Gap Blank; decide)
    ⟨by simp, by unfold Blank; decide, by simp⟩ (by simp [Blank]) ?_
  exact Line.nil (g := [13]) (by unfold Gap Blank; decide)

/-- Hypothesis of `inline_incomplete_not_executed`: an unfinished quoted word. -/
example : (10 : UInt8) ∉ ([83, 69, 84, 32, 34, 97, 92] : Bytes) := by decide

/-- Hypotheses of `inline_chunking_partial`: `PING` encoded, then inline, without the final LF. -/
example : List.Forall₂ Request [[[80, 73, 78, 71]], [[80, 73, 78, 71]]]
      [[42, 49, 13, 10, 36, 48, 52, 13, 10, 80, 73, 78, 71, 13, 10], [80, 73, 78, 71, 13, 10]] ∧
    ([[42, 49, 13, 10, 36, 48, 52, 13, 10, 80, 73, 78, 71, 13, 10], [80, 73, 78], [71, 13]] : List Bytes).flatten <+:
      ([[42, 49, 13, 10, 36, 48, 52, 13, 10, 80, 73, 78, 71, 13, 10], [80, 73, 78, 71, 13, 10]] : List Bytes).flatten := by
  refine ⟨.cons (Or.inl ?_) (.cons (Or.inr ⟨?_, by simp, by simp⟩) .nil), by decide⟩
  · cases Example.enc with
    | cons _ h => cases h with
      | cons h _ => exact h
  · exact (split_inline_rejected (σ := Unit) (fun _ s => (s, false)) id () (fun _ _ => .more)).1

end Verif.Resp
