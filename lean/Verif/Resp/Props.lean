import Mathlib.Tactic.Common
import Mathlib.Data.List.Forall2
import Verif.Resp.Stream
import Verif.Num.Props

/-!
C32, C33: RESP requests.
-/

namespace Verif.Resp

open Verif.Num

/-! ### Specification -/

/-- A decimal number as a client may write it: digits, possibly with leading zeros, at most 32 of them. -/
def NumText (t : Bytes) (n : Nat) : Prop :=
  t ≠ [] ∧ t.length ≤ 32 ∧ (∀ b ∈ t, b ∈ ([48, 49, 50, 51, 52, 53, 54, 55, 56, 57] : Bytes)) ∧ decimal t = n

/-- One argument on the wire: `$` length CR LF bytes CR LF. -/
def EncArg (a : Bytes) (w : Bytes) : Prop :=
  ∃ t, NumText t a.length ∧ a.length ≤ 536870912 ∧ w = 36 :: (t ++ [13, 10] ++ a ++ [13, 10])

/-- All arguments. -/
inductive EncArgs : List Bytes → Bytes → Prop
  | nil : EncArgs [] []
  | cons {a w : Bytes} {as : List Bytes} {ws : Bytes} : EncArg a w → EncArgs as ws → EncArgs (a :: as) (w ++ ws)

/-- A command on the wire: `*` number of arguments CR LF arguments. -/
def Enc (as : List Bytes) (w : Bytes) : Prop :=
  ∃ t ws, NumText t as.length ∧ as.length ≤ 100000 ∧ EncArgs as ws ∧ w = 42 :: (t ++ [13, 10] ++ ws)

/-! ### Numbers -/

theorem NumText.digits {t : Bytes} {n : Nat} (h : NumText t n) : ∀ b ∈ t, isDigit b = true :=
  fun b hb => (isDigit_iff b).2 (h.2.2.1 b hb)

theorem NumText.val {t : Bytes} {n : Nat} (h : NumText t n) : digitsVal 0 t = n := by
  rw [digitsVal_eq_decimal]; exact h.2.2.2

theorem scan_digits {t r : Bytes} (hne : t ≠ []) (h : ∀ b ∈ t, isDigit b = true) (hr : ∀ b, r.head? = some b → isDigit b = false) :
    strtoScan (t ++ r) = (false, t, r) := by
  cases t with
  | nil => exact absurd rfl hne
  | cons a t =>
    have ha := h a (by simp)
    have h1 : ((a :: t) ++ r).dropWhile isSpace = (a :: t) ++ r := by
      rw [List.cons_append, List.dropWhile_cons_of_neg (by rw [digit_not_space ha]; simp)]
    have hs := digit_not_sign ha
    have htw : ∀ l : Bytes, (∀ b ∈ l, isDigit b = true) → (l ++ r).takeWhile isDigit = l ∧ (l ++ r).dropWhile isDigit = r := by
      intro l hl
      induction l with
      | nil =>
        cases r with
        | nil => simp
        | cons b r => simp [hr b rfl]
      | cons x l ih =>
        have := ih fun b hb => hl b (by simp [hb])
        simp [hl x (by simp), this.1, this.2]
    unfold strtoScan
    rw [h1]
    rw [List.cons_append]
    simp only []
    have h2 := htw (a :: t) h
    rw [List.cons_append] at h2
    split
    · rename_i heq; exact absurd (List.cons.inj heq).1 hs.1
    · rename_i heq; exact absurd (List.cons.inj heq).1 hs.2
    · simp only [h2.1, h2.2]

theorem findCr {t r : Bytes} (h : ∀ b ∈ t, isDigit b = true) : (t ++ 13 :: r).findIdx? (· = 13) = some t.length := by
  induction t with
  | nil => simp [List.findIdx?_cons]
  | cons a t ih =>
    have ha : a ≠ 13 := by
      rintro rfl
      have := h 13 (by simp)
      simp [isDigit] at this
    simp only [List.cons_append, List.findIdx?_cons, ha, decide_false, Bool.false_eq_true, if_false, ih fun b hb => h b (by simp [hb]),
      List.length_cons, Option.map_some]

theorem findCr_none {t : Bytes} (h : ∀ b ∈ t, isDigit b = true) : t.findIdx? (· = 13) = none := by
  rw [List.findIdx?_eq_none_iff]
  intro b hb
  have := h b hb
  simp only [decide_eq_false_iff_not]
  rintro rfl
  simp [isDigit] at this

theorem readRespNum_num {t : Bytes} {n : Nat} (ht : NumText t n) {min max : Int} (hmin : min ≤ 0) (hmax : (n : Int) ≤ max)
    (hm2 : max ≤ 2 ^ 63 - 1) (r : Bytes) : readRespNum (t ++ [13, 10] ++ r) min max = .got (n, r) := by
  have hdig := ht.digits
  have hform : t ++ [13, 10] ++ r = t ++ 13 :: (10 :: r) := by simp
  unfold readRespNum
  rw [hform, findCr hdig]
  simp only []
  rw [if_neg (by simp)]
  rw [if_neg (by simp)]
  have hnum : readNum (t ++ 13 :: 10 :: r) t.length min max = .got (n : Int) := by
    unfold readNum
    rw [scan_digits ht.1 hdig (by intro b hb; simp at hb; subst hb; rfl)]
    simp only [if_neg ht.1, Bool.false_eq_true, if_false, ht.val]
    rw [if_neg (by simp), if_pos]
    refine ⟨?_, ?_, ?_, ?_, hmax⟩
    · unfold i64min; omega
    · unfold i64max; omega
    · simp
    · omega
  rw [hnum]
  show PR.got ((n : Int), (t ++ 13 :: 10 :: r).drop (t.length + 2)) = _
  rw [← List.drop_drop, List.drop_left]
  rfl

/-- A number cut short: more is needed. -/
theorem readRespNum_cut {t : Bytes} {n : Nat} (ht : NumText t n) {min max : Int} (m : Nat) (hm : m < t.length + 2) :
    readRespNum ((t ++ [13, 10]).take m) min max = .more := by
  have hdig := ht.digits
  unfold readRespNum
  by_cases h : m ≤ t.length
  · have hm' : (t ++ [13, 10]).take m = t.take m := by
      rw [List.take_append, show m - t.length = 0 by omega]; simp
    rw [hm', findCr_none fun b hb => hdig b (List.mem_of_mem_take hb)]
    simp only []
    rw [if_neg]
    have := ht.2.1
    rw [List.length_take]; omega
  · obtain rfl : m = t.length + 1 := by omega
    have hm' : (t ++ [13, 10]).take (t.length + 1) = t ++ 13 :: [] := by
      rw [List.take_append, List.take_of_length_le (by omega)]; simp
    rw [hm', findCr hdig]
    simp

/-! ### Arguments -/

theorem readArgs_enc {as : List Bytes} {ws : Bytes} (h : EncArgs as ws) (r : Bytes) : readArgs as.length (ws ++ r) = .got (as, r) := by
  induction h with
  | nil => rfl
  | @cons a w as ws ha _ ih =>
    obtain ⟨t, ht, hsz, rfl⟩ := ha
    rw [List.length_cons]
    have hform : 36 :: (t ++ [13, 10] ++ a ++ [13, 10]) ++ ws ++ r = 36 :: (t ++ [13, 10] ++ (a ++ [13, 10] ++ (ws ++ r))) := by simp
    rw [hform, readArgs]
    rw [if_neg (by simp), if_neg (by simp), readRespNum_num ht (by omega) (by unfold maxArgSz; omega) (by unfold maxArgSz; omega)]
    simp only [PR.bind]
    rw [if_neg (by simp; omega)]
    simp only [Int.toNat_natCast]
    have hd : (a ++ [13, 10] ++ (ws ++ r)).drop (a.length + 2) = ws ++ r := by
      rw [List.drop_left' (by simp)]
    have htk : (a ++ [13, 10] ++ (ws ++ r)).take a.length = a := by
      rw [List.append_assoc]; exact List.take_left
    rw [hd, ih, htk]

/-- Arguments cut short: more is needed. -/
theorem readArgs_cut {as : List Bytes} {ws : Bytes} (h : EncArgs as ws) (m : Nat) (hm : m < ws.length) :
    readArgs as.length (ws.take m) = .more := by
  induction h generalizing m with
  | nil => simp at hm
  | @cons a w as ws ha _ ih =>
    obtain ⟨t, ht, hsz, rfl⟩ := ha
    rw [List.length_cons]
    by_cases hL : (36 :: (t ++ [13, 10] ++ a ++ [13, 10])).length ≤ m
    · rw [List.take_append, List.take_of_length_le hL]
      have hform : ∀ r, 36 :: (t ++ [13, 10] ++ a ++ [13, 10]) ++ r = 36 :: (t ++ [13, 10] ++ (a ++ [13, 10] ++ r)) := by simp
      rw [hform, readArgs]
      rw [if_neg (by simp), if_neg (by simp), readRespNum_num ht (by omega) (by unfold maxArgSz; omega) (by unfold maxArgSz; omega)]
      simp only [PR.bind]
      rw [if_neg (by simp only [List.length_append, List.length_cons, List.length_nil]; omega)]
      simp only [Int.toNat_natCast]
      rw [List.drop_left' (by simp), ih _ (by rw [List.length_append] at hm; omega)]
    · cases m with
      | zero => simp [readArgs]
      | succ m =>
        have hcut : (36 :: (t ++ [13, 10] ++ a ++ [13, 10]) ++ ws).take (m + 1) = 36 :: (t ++ [13, 10] ++ (a ++ [13, 10])).take m := by
          simp only [List.length_cons, List.length_append, List.length_nil] at hL
          rw [List.cons_append, List.take_succ_cons]
          congr 1
          rw [List.take_append_of_le_length (by simp; omega)]
          simp
        rw [hcut, readArgs, if_neg (by simp)]
        by_cases hm0 : m = 0
        · subst hm0; simp
        have hne : (t ++ [13, 10] ++ (a ++ [13, 10])).take m ≠ [] := by
          intro h0
          have := congrArg List.length h0
          rw [List.length_take] at this
          simp at this; omega
        rw [if_neg hne]
        by_cases hnum : m < t.length + 2
        · rw [List.take_append_of_le_length (by simp; omega), readRespNum_cut ht m hnum]
          rfl
        · rw [List.take_append, List.take_of_length_le (by simp; omega),
            readRespNum_num ht (by omega) (by unfold maxArgSz; omega) (by unfold maxArgSz; omega)]
          simp only [PR.bind]
          rw [if_pos]
          simp only [List.length_cons, List.length_append, List.length_nil] at hL
          simp only [List.length_take, List.length_append, List.length_cons, List.length_nil]
          omega

/-! ### Commands -/

/-- **C32.**  A command on the wire, followed by anything, is parsed into exactly its arguments, and exactly its bytes are used. -/
theorem resp_parse_exact {as : List Bytes} {w : Bytes} (h : Enc as w) (rest : Bytes) : parseResp (w ++ rest) = .got (as, w.length) := by
  obtain ⟨t, ws, ht, hn, hws, rfl⟩ := h
  have hform : 42 :: (t ++ [13, 10] ++ ws) ++ rest = 42 :: (t ++ [13, 10] ++ (ws ++ rest)) := by simp
  rw [hform, parseResp]
  rw [if_neg (by simp), if_neg (by simp), readRespNum_num ht (by omega) (by unfold maxArgs; omega) (by unfold maxArgs; omega)]
  simp only [PR.bind, Int.toNat_natCast]
  rw [readArgs_enc hws]
  simp only []
  congr 2
  simp
  omega

/-- A command of which a part is missing is neither executed nor rejected. -/
theorem resp_incomplete_waits {as : List Bytes} {w : Bytes} (h : Enc as w) {p : Bytes} (hp : p <+: w) (hne : p ≠ w) :
    parseResp p = .more := by
  have hpt : p = w.take p.length := (List.prefix_iff_eq_take.1 hp)
  have hlt : p.length < w.length := by
    rcases Nat.lt_or_ge p.length w.length with h | h
    · exact h
    · exact absurd (by rw [hpt, List.take_of_length_le h]) hne
  obtain ⟨t, ws, ht, hn, hws, rfl⟩ := h
  generalize hm : p.length = m at *
  rw [hpt]
  clear hp hne hpt hm
  cases m with
  | zero => rfl
  | succ m =>
    rw [List.take_succ_cons, parseResp, if_neg (by simp)]
    by_cases hm0 : m = 0
    · subst hm0; simp
    have hne : (t ++ [13, 10] ++ ws).take m ≠ [] := by
      intro h0
      have := congrArg List.length h0
      rw [List.length_take] at this
      simp at this; omega
    rw [if_neg hne]
    by_cases hnum : m < t.length + 2
    · rw [List.take_append_of_le_length (by simp; omega), readRespNum_cut ht m hnum]
      rfl
    · rw [List.take_append, List.take_of_length_le (by simp; omega),
        readRespNum_num ht (by omega) (by unfold maxArgs; omega) (by unfold maxArgs; omega)]
      simp only [PR.bind, Int.toNat_natCast]
      rw [readArgs_cut hws]
      simp only [List.length_cons, List.length_append, List.length_nil] at hlt ⊢
      omega

/-! ### Chunks -/

theorem enc_ne_nil {as : List Bytes} {w : Bytes} (h : Enc as w) : ∃ r, w = 42 :: r := by
  obtain ⟨t, ws, _, _, _, rfl⟩ := h
  exact ⟨_, rfl⟩

theorem head_prefix {b : UInt8} {r p : Bytes} (h : p <+: b :: r) (hne : p ≠ []) : p.head? = some b := by
  obtain ⟨x, hx⟩ := h
  cases p with
  | nil => exact absurd rfl hne
  | cons c p => simp at hx; simp [hx.1]

theorem enc_framed {as : List Bytes} {w : Bytes} (h : Enc as w) : Framed parseCommandResp as w := by
  obtain ⟨r, hr⟩ := enc_ne_nil h
  refine ⟨by rw [hr]; simp, fun rest => ?_, fun p h1 h2 h3 => ?_⟩
  · unfold parseCommandResp
    rw [if_pos (by rw [hr]; simp)]
    exact resp_parse_exact h rest
  · unfold parseCommandResp
    rw [if_pos (head_prefix (hr ▸ h1) h3)]
    exact resp_incomplete_waits h h1 h2

theorem sniff_star {s : Bytes} (h : s.head? = some 42) : sniff s = .got (some .resp) := by
  unfold sniff; rw [if_pos h]

/-- **C33.**  Let the bytes received so far on a new connection, in whatever chunks, be a part of a stream of commands on the wire.  Then
exactly the commands that have arrived completely have been executed, in order and up to the first that closes the connection, and nothing
was rejected. -/
theorem resp_chunking {σ : Type} (exec : Exec (List Bytes) σ) (onErr : σ → σ) {cs : List (List Bytes)} {ws : List Bytes}
    (h : List.Forall₂ Enc cs ws) (chunks : List Bytes) (hp : chunks.flatten <+: ws.flatten) (st : σ)
    (others : Proto → Bytes → PR (List Bytes × Nat)) :
    ∃ c k tail, feed (fun p => if p = .resp then parseCommandResp else others p) (execResp exec) onErr (newConn st) chunks = .got c ∧
      Received ws chunks.flatten k tail ∧ (c.st, c.closed) = runAll (execResp exec) (cs.take k) st ∧
      (c.closed = false → c.packet = tail) := by
  refine stream_chunking (p := .resp) (by simp) _ (execResp exec) onErr ?_ chunks hp st .none (Or.inr ⟨rfl, ?_⟩)
  · exact h.imp fun _ _ hc => by simpa using enc_framed hc
  · intro d hd hne
    refine sniff_star ?_
    cases h with
    | nil => simp at hd; exact absurd hd hne
    | cons hc _ =>
      obtain ⟨r, hr⟩ := enc_ne_nil hc
      rw [List.flatten_cons, hr, List.cons_append] at hd
      exact head_prefix hd hne

/-! ### Concrete cases -/

namespace Example

/-- `GET` with the argument CR LF `$`, and then `PING`. -/
def cmds : List (List Bytes) := [[[71, 69, 84], [13, 10, 36]], [[80, 73, 78, 71]]]
def wire : List Bytes :=
  [[42, 50, 13, 10, 36, 51, 13, 10, 71, 69, 84, 13, 10, 36, 51, 13, 10, 13, 10, 36, 13, 10],
   [42, 49, 13, 10, 36, 48, 52, 13, 10, 80, 73, 78, 71, 13, 10]]

theorem enc : List.Forall₂ Enc cmds wire := by
  refine .cons ?_ (.cons ?_ .nil)
  · refine ⟨[50], _, ⟨by decide, by decide, by decide, by decide⟩, by decide, ?_, rfl⟩
    exact .cons (w := [36, 51, 13, 10, 71, 69, 84, 13, 10]) ⟨[51], ⟨by decide, by decide, by decide, by decide⟩, by decide, rfl⟩
      (.cons (w := [36, 51, 13, 10, 13, 10, 36, 13, 10]) ⟨[51], ⟨by decide, by decide, by decide, by decide⟩, by decide, rfl⟩ .nil)
  · refine ⟨[49], _, ⟨by decide, by decide, by decide, by decide⟩, by decide, ?_, rfl⟩
    exact .cons (w := [36, 48, 52, 13, 10, 80, 73, 78, 71, 13, 10])
      ⟨[48, 52], ⟨by decide, by decide, by decide, by decide⟩, by decide, rfl⟩ .nil

/-- Hypotheses of `resp_parse_exact` and `resp_incomplete_waits`. -/
example : Enc [[71, 69, 84], [13, 10, 36]] (wire.headD []) ∧ ([42, 50, 13] : Bytes) <+: wire.headD [] ∧ ([42, 50, 13] : Bytes) ≠ wire.headD [] := by
  refine ⟨?_, by decide, by decide⟩
  cases enc with
  | cons h _ => exact h

/-- Hypotheses of `resp_chunking`: byte by byte, with the last byte missing. -/
example : List.Forall₂ Enc cmds wire ∧ ((wire.flatten.take 36).map fun b => [b]).flatten <+: wire.flatten :=
  ⟨enc, by decide⟩

end Example

end Verif.Resp
