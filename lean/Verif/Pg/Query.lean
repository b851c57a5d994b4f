import Mathlib.Tactic.Common
import Verif.Pg.Pmap
import Verif.Num.Props
import Verif.Http.Props

/-!
C41: prepared statements; C42: quoted strings.
-/

namespace Verif.Pg

open Verif.Num Verif.Resp

/-! ### Specification of queries -/

/-- A piece of a word of a query. -/
inductive Piece where
  | word (w : Bytes)
  | quoted (t : Bytes)
  | param (n : Nat)

/-- How a piece is written. -/
def Piece.text : Piece → Bytes
  | .word w => w
  | .quoted t => 39 :: t ++ [39]
  | .param n => 36 :: u64toa n

/-- Bare words contain no blanks, `;`, quotes, `$` or NUL; quoted ones no single quotes and no NUL; parameters are numbered from 1. -/
def Piece.Ok : Piece → Prop
  | .word w => w ≠ [] ∧ ∀ b ∈ w, b ∉ ([32, 9, 10, 11, 12, 13, 59, 39, 34, 36, 0] : Bytes)
  | .quoted t => 39 ∉ t ∧ 0 ∉ t
  | .param n => 1 ≤ n ∧ n ≤ 65535

/-- Pieces that can be told apart when written one after the other. -/
def Piece.Then : Piece → Piece → Prop
  | .word _, .word _ => False
  | .word w, .quoted _ => w ≠ [69] ∧ w ≠ [101]
  | .quoted _, .quoted _ => False
  | .param _, .word w => ∀ b, w.head? = some b → isDigit b = false
  | _, _ => True

/-- A query as list of pieces: whether a piece continues the word of the piece before, and the piece. -/
abbrev Query := List (Bool × Piece)

/-- The text of a query from a piece on, and before a piece. -/
def tailText : Query → Bytes
  | [] => []
  | (g, p) :: q => (if g then [] else [32]) ++ (p.text ++ tailText q)

/-- The text of a query. -/
def text : Query → Bytes
  | [] => []
  | (_, p) :: q => p.text ++ tailText q

/-- All pieces are well formed, and those of one word can be told apart. -/
def Valid : Query → Prop
  | [] => True
  | [x] => x.2.Ok
  | x :: y :: q => x.2.Ok ∧ (y.1 = true → x.2.Then y.2) ∧ Valid (y :: q)

/-- The numbers of the parameters, in the order of their occurrence. -/
def paramsOf : Query → List Nat
  | [] => []
  | (_, .param n) :: q => n :: paramsOf q
  | _ :: q => paramsOf q

/-- What a piece stands for, given the values of the parameters. -/
def Piece.value (ps : List Bytes) : Piece → Bytes
  | .word w => w
  | .quoted t => t
  | .param n => ps.getD (n - 1) []

/-- The words of the query with the values in place of the parameters; `w` is the word so far. -/
def wordsFrom (ps : List Bytes) (w : Bytes) : Query → List Bytes
  | [] => [w]
  | (true, p) :: q => wordsFrom ps (w ++ p.value ps) q
  | (false, p) :: q => w :: wordsFrom ps (p.value ps) q

/-- The words of the query. -/
def words (ps : List Bytes) : Query → List Bytes
  | [] => []
  | (_, p) :: q => wordsFrom ps (p.value ps) q

/-! ### Reading a query -/

def Piece.tok (g : Bool) : Piece → Tok
  | .word w => ⟨w, false, g⟩
  | .quoted t => ⟨t, false, g⟩
  | .param n => ⟨36 :: u64toa n, true, g⟩

def toks (q : Query) : List Tok := q.map fun x => x.2.tok x.1

theorem word_char {b : UInt8} (h : b ∉ ([32, 9, 10, 11, 12, 13, 59, 39, 34, 36, 0] : Bytes)) : isSpace b = false ∧ endsWord b = false := by
  simp only [List.mem_cons, List.not_mem_nil, or_false, not_or] at h
  obtain ⟨h1, h2, h3, h4, h5, h6, h7, h8, h9, h10, h11⟩ := h
  have hs : isSpace b = false := by
    have key : ∀ n < 256, isSpace (UInt8.ofNat n) = true → UInt8.ofNat n = 32 ∨ UInt8.ofNat n = 9 ∨ UInt8.ofNat n = 10 ∨ UInt8.ofNat n = 11 ∨
        UInt8.ofNat n = 12 ∨ UInt8.ofNat n = 13 := by decide +kernel
    have := key b.toNat b.toNat_lt
    rw [UInt8.ofNat_toNat] at this
    by_contra hc
    rcases this (by simpa using hc) with h | h | h | h | h | h <;> contradiction
  refine ⟨hs, ?_⟩
  unfold endsWord
  simp [hs, h7, h8, h9, h10]

theorem Piece.Ok.first {p : Piece} (h : p.Ok) : ∃ b s, p.text = b :: s ∧ isSpace b = false := by
  cases p with
  | word w =>
    cases w with
    | nil => exact absurd rfl h.1
    | cons b w => exact ⟨b, w, rfl, (word_char (h.2 b (by simp))).1⟩
  | quoted t => exact ⟨39, t ++ [39], rfl, by decide⟩
  | param n => exact ⟨36, u64toa n, rfl, by decide⟩

theorem simpleStr_plain (t s : Bytes) (h : 39 ∉ t) (hs : s.head? ≠ some 39) : simpleStr (t ++ 39 :: s) = some (t, false, s) := by
  induction t with
  | nil =>
    cases s with
    | nil => rfl
    | cons b s =>
      have hb : b ≠ 39 := by simpa using hs
      rw [List.nil_append, simpleStr]
      · intro s' hc; simp at hc; exact hb hc.1
  | cons b t ih =>
    simp only [List.mem_cons, not_or] at h
    rw [List.cons_append, simpleStr, ih h.2]
    · rfl
    all_goals (intros; first | exact Ne.symm h.1 | (rename_i hc; exact absurd hc (Ne.symm h.1)) | (rename_i hc _; exact absurd hc (Ne.symm h.1)) | (simp_all; done))

theorem takeWhile_stop {p : UInt8 → Bool} (w s : Bytes) (hw : ∀ b ∈ w, p b = true) (hs : ∀ b, s.head? = some b → p b = false) :
    (w ++ s).takeWhile p = w := by
  rw [List.takeWhile_append_of_pos hw]
  cases s with
  | nil => simp
  | cons b s => rw [List.takeWhile_cons_of_neg (by simpa using hs b rfl)]; simp

/-- The parameter a piece stands for. -/
def Piece.nums : Piece → List Nat
  | .param n => [n]
  | _ => []

/-- What may follow a piece: nothing, a blank, or a piece that can be told apart. -/
def Follows (p : Piece) (s : Bytes) : Prop :=
  match p with
  | .word w => (∀ b, s.head? = some b → endsWord b = true) ∧ (s.head? = some 39 → w ≠ [69] ∧ w ≠ [101])
  | .quoted _ => s.head? ≠ some 39
  | .param _ => ∀ b, s.head? = some b → isDigit b = false

theorem tokens_piece {hash : Nat → Nat} {p : Piece} (h : p.Ok) {s : Bytes} (hs : Follows p s) {m : Pmap} {S : List Nat} (hm : m.Is hash S)
    (f : Nat) (g esc : Bool) (acc : List Tok) :
    ∃ esc' m', m'.Is hash (p.nums ++ S) ∧
      (tokens hash (f + 1) (p.text ++ s) g esc acc m = tokens hash f s (sticks s) esc' (acc ++ [p.tok g]) m' ∨
        tokens hash (f + 1) (p.text ++ s) g esc acc m = tokens hash f (s.dropWhile isSpace) (sticks s) esc' (acc ++ [p.tok g]) m') := by
  cases p with
  | word w =>
    obtain ⟨hne, hw⟩ := h
    cases w with
    | nil => exact absurd rfl hne
    | cons b w =>
      refine ⟨esc, m, hm, Or.inr ?_⟩
      have hb := hw b (by simp)
      have hb' := word_char hb
      simp only [List.mem_cons, List.not_mem_nil, or_false, not_or] at hb
      obtain ⟨h1, h2, h3, h4, h5, h6, h7, h8, h9, h10, h11⟩ := hb
      have htw : (w ++ s).takeWhile (fun c => !endsWord c) = w := by
        apply takeWhile_stop
        · intro c hc; simp [(word_char (hw c (by simp [hc]))).2]
        · intro c hc; simp [hs.1 c hc]
      have hE : ¬ ((b = 69 ∨ b = 101) ∧ (w ++ s).head? = some 39) := by
        rintro ⟨hb, hh⟩
        cases w with
        | nil =>
          have := hs.2 (by simpa using hh)
          rcases hb with rfl | rfl
          · exact this.1 rfl
          · exact this.2 rfl
        | cons c w =>
          have : c = 39 := by simpa using hh
          have hc := hw c (by simp)
          rw [this] at hc
          exact hc (by decide)
      simp only [Piece.text, List.cons_append, tokens]
      rw [if_neg h7, if_neg h9, if_neg h8, if_neg h10, if_neg hE, if_neg (by rw [hb'.1]; simp), htw]
      simp [Piece.tok]
  | quoted t =>
    obtain ⟨h1, h2⟩ := h
    refine ⟨false, m, hm, Or.inl ?_⟩
    simp only [Piece.text, List.cons_append, tokens, List.append_assoc, List.nil_append]
    rw [if_neg (by decide), if_neg (by decide), if_pos trivial, simpleStr_plain t s h1 hs]
    simp [Piece.tok]
  | param n =>
    obtain ⟨h1, h2⟩ := h
    obtain ⟨m', hm1, hm2⟩ := Pmap.insert_is hm n (by omega)
    refine ⟨esc, m', hm2, Or.inl ?_⟩
    have htw : (u64toa n ++ s).takeWhile (fun c => 48 ≤ c && c ≤ 57) = u64toa n := by
      apply takeWhile_stop
      · intro b hb; exact u64toa_digits n b hb
      · intro b hb; exact hs b hb
    simp only [Piece.text, List.cons_append, tokens]
    rw [if_neg (by decide), if_neg (by decide), if_neg (by decide), if_pos trivial, htw, if_neg (u64toa_ne_nil n), digitsVal_u64toa, if_neg (by omega), hm1]
    simp [Piece.tok]

theorem dropWhile_tail {q : Query} (h : Valid q) : (tailText q).dropWhile isSpace = text q := by
  cases q with
  | nil => rfl
  | cons x q =>
    obtain ⟨g, p⟩ := x
    have hp : p.Ok := by
      cases q with
      | nil => exact h
      | cons _ _ => exact h.1
    obtain ⟨b, s, hb, hsp⟩ := hp.first
    unfold tailText text
    rw [hb]
    cases g
    · simp only [Bool.false_eq_true, if_false, List.cons_append, List.nil_append]
      rw [List.dropWhile_cons_of_pos (by decide), List.dropWhile_cons_of_neg (by simp [hsp])]
      simp [hb]
    · simp only [if_true, List.cons_append, List.nil_append]
      rw [List.dropWhile_cons_of_neg (by simp [hsp])]
      simp [hb]

/-- Whether the query starts with a piece that continues a word. -/
def glued : Query → Bool
  | [] => false
  | x :: _ => x.1

theorem sticks_tail {q : Query} (h : Valid q) : sticks (tailText q) = glued q := by
  cases q with
  | nil => rfl
  | cons x q =>
    obtain ⟨g, p⟩ := x
    have hp : p.Ok := by
      cases q with
      | nil => exact h
      | cons _ _ => exact h.1
    obtain ⟨b, s, hb, hsp⟩ := hp.first
    unfold tailText
    rw [hb]
    cases g
    · rfl
    · simp [sticks, hsp, glued]

theorem Valid.tail {x : Bool × Piece} {q : Query} (h : Valid (x :: q)) : x.2.Ok ∧ Valid q ∧ Follows x.2 (tailText q) := by
  obtain ⟨g, p⟩ := x
  cases q with
  | nil =>
    refine ⟨h, trivial, ?_⟩
    cases p <;> simp [Follows, tailText]
  | cons y q =>
    obtain ⟨h1, h2, h3⟩ := h
    refine ⟨h1, h3, ?_⟩
    obtain ⟨g', p'⟩ := y
    have hp' : p'.Ok := by
      cases q with
      | nil => exact h3
      | cons _ _ => exact h3.1
    cases g' with
    | false =>
      cases p with
      | word w => exact ⟨by intro b hb; simp [tailText] at hb; rw [← hb]; decide, by intro hb; simp [tailText] at hb⟩
      | quoted t => simp [Follows, tailText]
      | param n => intro b hb; simp [tailText] at hb; rw [← hb]; decide
    | true =>
      have hthen := h2 rfl
      cases p with
      | word w =>
        cases p' with
        | word _ => exact absurd hthen (by simp [Piece.Then])
        | quoted t => exact ⟨by intro b hb; simp [tailText, Piece.text] at hb; rw [← hb]; decide, fun _ => hthen⟩
        | param n => exact ⟨by intro b hb; simp [tailText, Piece.text] at hb; rw [← hb]; decide, by intro hb; simp [tailText, Piece.text] at hb⟩
      | quoted t =>
        cases p' with
        | word w =>
          intro hc
          cases w with
          | nil => exact absurd rfl hp'.1
          | cons b w =>
            have : b = 39 := by simpa [tailText, Piece.text] using hc
            have := hp'.2 b (by simp)
            simp_all
        | quoted _ => exact absurd hthen (by simp [Piece.Then])
        | param n => simp [Follows, tailText, Piece.text]
      | param n =>
        cases p' with
        | word w =>
          intro b hb
          cases w with
          | nil => exact absurd rfl hp'.1
          | cons c w =>
            refine hthen b ?_
            simpa [tailText, Piece.text] using hb
        | quoted _ => intro b hb; simp [tailText, Piece.text] at hb; rw [← hb]; decide
        | param _ => intro b hb; simp [tailText, Piece.text] at hb; rw [← hb]; decide

theorem tokens_query {hash : Nat → Nat} (q : Query) (h : Valid q) : ∀ (f : Nat) (esc : Bool) (acc : List Tok) (m : Pmap) (S : List Nat), m.Is hash S →
    (text q).length < f → ∃ m', m'.Is hash ((paramsOf q).reverse ++ S) ∧
      tokens hash f (text q) (glued q) esc acc m = some (some (acc ++ toks q, m')) := by
  induction q with
  | nil =>
    intro f esc acc m S hm hf
    obtain ⟨f, rfl⟩ : ∃ f', f = f' + 1 := ⟨f - 1, by simp [text] at hf; omega⟩
    exact ⟨m, hm, by simp [text, tokens, toks]⟩
  | cons x q ih =>
    intro f esc acc m S hm hf
    obtain ⟨h1, h2, h3⟩ := h.tail
    obtain ⟨g, p⟩ := x
    change p.Ok at h1
    change Follows p (tailText q) at h3
    obtain ⟨f, rfl⟩ : ∃ f', f = f' + 1 := ⟨f - 1, by omega⟩
    obtain ⟨esc', m1, hm1, hstep⟩ := tokens_piece h1 h3 hm f g esc acc
    have htl : ∀ y : Query, (tailText y).length ≤ (text y).length + 1 := by
      intro y
      cases y with
      | nil => simp [tailText]
      | cons z y => obtain ⟨g, p⟩ := z; cases g <;> simp [tailText, text]
    have hpt : 1 ≤ p.text.length := by
      obtain ⟨b, s, hb, _⟩ := h1.first
      rw [hb]; simp
    have hlen : (tailText q).length < f := by
      simp only [text, List.length_append] at hf
      omega
    have htl2 : (text q).length ≤ (tailText q).length := by
      cases q with
      | nil => simp [text]
      | cons z y => obtain ⟨g, p⟩ := z; cases g <;> simp [tailText, text]
    have hpar : paramsOf ((g, p) :: q) = p.nums ++ paramsOf q := by cases p <;> rfl
    have hfin : ∀ m' : Pmap, m'.Is hash ((paramsOf q).reverse ++ (p.nums ++ S)) →
        m'.Is hash ((paramsOf ((g, p) :: q)).reverse ++ S) := by
      intro m' hm'
      rw [hpar]
      cases p <;> simpa [Piece.nums] using hm'
    have htok : toks ((g, p) :: q) = p.tok g :: toks q := rfl
    -- what follows the piece
    have hA : ∃ m', m'.Is hash ((paramsOf ((g, p) :: q)).reverse ++ S) ∧
        tokens hash f ((tailText q).dropWhile isSpace) (sticks (tailText q)) esc' (acc ++ [p.tok g]) m1 =
          some (some (acc ++ toks ((g, p) :: q), m')) := by
      rw [dropWhile_tail h2, sticks_tail h2]
      obtain ⟨m', hm', he⟩ := ih h2 f esc' (acc ++ [p.tok g]) m1 _ hm1 (by omega)
      exact ⟨m', hfin m' hm', by rw [he, htok]; simp⟩
    have hB : ∃ m', m'.Is hash ((paramsOf ((g, p) :: q)).reverse ++ S) ∧
        tokens hash f (tailText q) (sticks (tailText q)) esc' (acc ++ [p.tok g]) m1 =
          some (some (acc ++ toks ((g, p) :: q), m')) := by
      cases q with
      | nil =>
        obtain ⟨m', hm', he⟩ := ih h2 f esc' (acc ++ [p.tok g]) m1 _ hm1 (by simp [text]; omega)
        exact ⟨m', hfin m' hm', by rw [sticks_tail h2]; simp only [tailText]; rw [show text [] = [] from rfl] at he; rw [he, htok]; simp⟩
      | cons z y =>
        obtain ⟨g', p'⟩ := z
        cases g' with
        | true =>
          obtain ⟨m', hm', he⟩ := ih h2 f esc' (acc ++ [p.tok g]) m1 _ hm1 (by omega)
          refine ⟨m', hfin m' hm', ?_⟩
          have : tailText ((true, p') :: y) = text ((true, p') :: y) := by simp [tailText, text]
          rw [sticks_tail h2, this, he, htok]; simp
        | false =>
          obtain ⟨f', rfl⟩ : ∃ f'', f = f'' + 1 := ⟨f - 1, by omega⟩
          have : tailText ((false, p') :: y) = 32 :: text ((false, p') :: y) := by simp [tailText, text]
          obtain ⟨m', hm', he⟩ := ih h2 f' esc' (acc ++ [p.tok g]) m1 _ hm1 (by rw [this, List.length_cons] at hlen; omega)
          refine ⟨m', hfin m' hm', ?_⟩
          rw [sticks_tail h2, this, tokens]
          simp only []
          rw [if_neg (by decide), if_neg (by decide), if_neg (by decide), if_neg (by decide), if_neg (fun h => absurd h.1 (by decide)), if_pos (by decide)]
          rw [he, htok]
          simp
    have ht : text ((g, p) :: q) = p.text ++ tailText q := rfl
    rw [ht, show glued ((g, p) :: q) = g from rfl]
    rcases hstep with hstep | hstep
    · rw [hstep]; exact hB
    · rw [hstep]; exact hA

/-- Each of the parameters 1, 2, … occurs exactly once. -/
def EachOnce (q : Query) : Prop := ∀ i, 1 ≤ i → i ≤ (paramsOf q).length → i ∈ paramsOf q

theorem parseQuery_exact (hash : Nat → Nat) {q : Query} (h : Valid q) (hfirst : ∀ x, q.head? = some x → x.1 = false) (hp : EachOnce q) :
    parseQuery hash (text q) = some (some (toks q, (paramsOf q).length)) := by
  have hdrop : (text q).dropWhile isSpace = text q := by
    cases q with
    | nil => rfl
    | cons x q =>
      obtain ⟨b, s, hb, hsp⟩ := h.tail.1.first
      obtain ⟨g, p⟩ := x
      simp only [] at hb
      simp only [text]
      rw [hb, List.cons_append, List.dropWhile_cons_of_neg (by simp [hsp])]
  unfold parseQuery
  simp only []
  rw [hdrop]
  obtain ⟨m', hm', he⟩ := tokens_query q h ((text q).length + 1) false [] Pmap.init [] (Pmap.init_is hash) (by omega)
  have hf : glued q = false := by
    cases q with
    | nil => rfl
    | cons x q => exact hfirst x rfl
  rw [hf] at he
  rw [he]
  simp only [Option.bind_some]
  have hc : m'.count = (paramsOf q).length := by have := hm'.2.1; simpa using this
  obtain ⟨b, hb1, hb2⟩ := checkParams_iff hm' m'.count
  rw [hb1, hc]
  have : b = true := hb2.2 (by
    intro i h1 h2
    have := hp i h1 (by omega)
    simpa using this)
  rw [this]
  simp

/-! ### Executing -/

theorem Valid.params {q : Query} (h : Valid q) : ∀ n ∈ paramsOf q, 1 ≤ n ∧ n ≤ 65535 := by
  induction q with
  | nil => simp [paramsOf]
  | cons x q ih =>
    obtain ⟨g, p⟩ := x
    have h1 := h.tail.1
    have h2 := ih h.tail.2.1
    cases p with
    | word w => exact h2
    | quoted t => exact h2
    | param n =>
      intro k hk
      rcases List.mem_cons.1 hk with rfl | hk
      · exact h1
      · exact h2 k hk

theorem fill_words (ps : List Bytes) (q : Query) (h : ∀ n ∈ paramsOf q, 1 ≤ n ∧ n ≤ 65535 ∧ n ≤ ps.length) (w : Bytes) (targs : List Bytes) :
    fill ps (toks q) (targs ++ [w]) = some (targs ++ wordsFrom ps w q) := by
  induction q generalizing w targs with
  | nil => simp [toks, fill, wordsFrom]
  | cons x q ih =>
    obtain ⟨g, p⟩ := x
    have hq : ∀ n ∈ paramsOf q, 1 ≤ n ∧ n ≤ 65535 ∧ n ≤ ps.length := by
      intro n hn
      apply h n
      cases p <;> simp [paramsOf, hn]
    have key : ∀ a, a = p.value ps → fill ps (toks ((g, p) :: q)) (targs ++ [w]) = (if g then
        fill ps (toks q) (targs ++ [w ++ a]) else fill ps (toks q) (targs ++ [w] ++ [a])) := by
      rintro a rfl
      show fill ps (p.tok g :: toks q) _ = _
      cases p with
      | word t => simp [fill, Tok.arg, Piece.tok, Piece.value]
      | quoted t => simp [fill, Tok.arg, Piece.tok, Piece.value]
      | param n =>
        obtain ⟨h1, h2, h3⟩ := h n (by simp [paramsOf])
        have hget : ps[n - 1]? = some (ps.getD (n - 1) []) := by
          rw [List.getD_eq_getElem?_getD, List.getElem?_eq_getElem (by omega : n - 1 < ps.length)]; rfl
        simp only [fill, Tok.arg, Piece.tok, if_true]
        rw [u64_text_roundtrip n (by omega)]
        simp only []
        rw [if_neg (by omega), hget]
        simp [Piece.value]
    rw [key _ rfl]
    cases g with
    | true => simp only [if_true]; rw [ih hq]; rfl
    | false =>
      simp only [Bool.false_eq_true, if_false]
      rw [ih hq]
      simp [wordsFrom]

theorem fill_exact (ps : List Bytes) (q : Query) (h : ∀ n ∈ paramsOf q, 1 ≤ n ∧ n ≤ 65535 ∧ n ≤ ps.length)
    (hfirst : ∀ x, q.head? = some x → x.1 = false) : fill ps (toks q) [] = some (words ps q) := by
  cases q with
  | nil => rfl
  | cons x q =>
    obtain ⟨g, p⟩ := x
    have hg : g = false := hfirst _ rfl
    subst hg
    have := fill_words ps ((false, p) :: q) h [] []
    -- the first word is preceded by an empty argument in `fill_words`
    have hq : ∀ n ∈ paramsOf q, 1 ≤ n ∧ n ≤ 65535 ∧ n ≤ ps.length := by
      intro n hn
      apply h n
      cases p <;> simp [paramsOf, hn]
    show fill ps (p.tok false :: toks q) [] = _
    cases p with
    | word t =>
      simp only [fill, Tok.arg, Piece.tok, Bool.false_eq_true, if_false]
      have := fill_words ps q hq t []
      simpa [words, Piece.value] using this
    | quoted t =>
      simp only [fill, Tok.arg, Piece.tok, Bool.false_eq_true, if_false]
      have := fill_words ps q hq t []
      simpa [words, Piece.value] using this
    | param n =>
      obtain ⟨h1, h2, h3⟩ := h n (by simp [paramsOf])
      have hget : ps[n - 1]? = some (ps.getD (n - 1) []) := by
        rw [List.getD_eq_getElem?_getD, List.getElem?_eq_getElem (by omega : n - 1 < ps.length)]; rfl
      simp only [fill, Tok.arg, Piece.tok, if_true, Bool.false_eq_true, if_false]
      rw [u64_text_roundtrip n (by omega)]
      simp only []
      rw [if_neg (by omega), hget]
      have := fill_words ps q hq (ps.getD (n - 1) []) []
      simpa [words, Piece.value] using this

end Verif.Pg
