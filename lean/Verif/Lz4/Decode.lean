import Verif.Lz4.Step

/-!
# What the LZ4 decoder answers

First the block format, written down without any word of the decoder: a block is a list of sequences (literals, then a copy of `mlen` bytes from
`off` bytes back) and some last literals.  Then the two statements about `LZ4_decompress_safe` (`/repo/src/lz4.c:2453-2458`): on every input it ends,
never leaves its buffers and answers at most the capacity; and on every block of the format that ends as the encoder must end it, it answers the exact
bytes if they fit and an error if they do not.
-/

namespace Verif.Lz4

/-! ## The format -/

/-- A sequence: literals, then `mlen` bytes repeated from `off` bytes back. -/
structure Seq where
  lits : Bytes
  off : Nat
  mlen : Nat
deriving DecidableEq, Repr

/-- The rest of a length that does not fit into its half of the token. -/
def lenExt (x : Nat) : Bytes := List.replicate (x / 255) 255 ++ [UInt8.ofNat (x % 255)]

/-- The bytes of a length behind the token. -/
def lenTail (x : Nat) : Bytes := if x < 15 then [] else lenExt (x - 15)

/-- The half of the token that announces a length. -/
def nibble (x : Nat) : Nat := min x 15

/-- A sequence as bytes. -/
def encSeq (s : Seq) : Bytes :=
  UInt8.ofNat (16 * nibble s.lits.length + nibble (s.mlen - 4)) :: (lenTail s.lits.length ++ (s.lits ++ (UInt8.ofNat (s.off % 256) :: UInt8.ofNat (s.off / 256) :: lenTail (s.mlen - 4))))

/-- The last literals as bytes. -/
def encLast (l : Bytes) : Bytes := UInt8.ofNat (16 * nibble l.length) :: (lenTail l.length ++ l)

/-- A block as bytes. -/
def block : List Seq → Bytes → Bytes
  | [], l => encLast l
  | s :: ss, l => encSeq s ++ block ss l

/-- `n` more bytes, each the one `off` back. -/
def copyBack (out : Bytes) (off : Nat) : Nat → Bytes
  | 0 => out
  | n + 1 => copyBack (out ++ [out.getD (out.length - off) 0]) off n

/-- What the sequences and the last literals mean, behind `out`. -/
def play (out : Bytes) : List Seq → Bytes → Bytes
  | [], l => out ++ l
  | s :: ss, l => play (copyBack (out ++ s.lits) s.off s.mlen) ss l

/-- How many bytes they mean. -/
def outLen : List Seq → Bytes → Nat
  | [], l => l.length
  | s :: ss, l => s.lits.length + s.mlen + outLen ss l

/-- The rules of the format: offsets from 1 to 65535 and not before the beginning, matches of at least four bytes, the last five bytes are literals,
the last match begins at least twelve bytes before the end.  `n` bytes have gone before. -/
def Valid (n : Nat) : List Seq → Bytes → Prop
  | [], _ => True
  | s :: ss, l => 1 ≤ s.off ∧ s.off ≤ 65535 ∧ s.off ≤ n + s.lits.length ∧ 4 ≤ s.mlen ∧ 5 ≤ l.length ∧ 12 ≤ s.mlen + outLen ss l ∧ Valid (n + s.lits.length + s.mlen) ss l

instance Valid.dec : (n : Nat) → (ss : List Seq) → (l : Bytes) → Decidable (Valid n ss l)
  | _, [], _ => isTrue trivial
  | n, s :: ss, l =>
    have := Valid.dec (n + s.lits.length + s.mlen) ss l
    inferInstanceAs (Decidable (_ ∧ _))

theorem copyBack_length (out : Bytes) (off n : Nat) : (copyBack out off n).length = out.length + n := by
  induction n generalizing out with
  | zero => rfl
  | succ n ih => rw [copyBack, ih, List.length_append, List.length_singleton]; omega

theorem play_length (out : Bytes) (ss : List Seq) (l : Bytes) : (play out ss l).length = out.length + outLen ss l := by
  induction ss generalizing out with
  | nil => simp only [play, outLen, List.length_append]
  | cons s ss ih => rw [play, ih, copyBack_length, List.length_append, outLen]; omega

theorem last_le_outLen (ss : List Seq) (l : Bytes) : l.length ≤ outLen ss l := by
  induction ss with
  | nil => exact Nat.le_refl _
  | cons s ss ih => rw [outLen]; omega

theorem last_lt_block (ss : List Seq) (l : Bytes) : l.length + 1 ≤ (block ss l).length := by
  induction ss with
  | nil => simp only [block, encLast, List.length_cons, List.length_append]; omega
  | cons s ss ih => rw [block, List.length_append]; omega

/-! ## Every input -/

section
variable {src : Mem} {n oend : Int}

/-- The decoder has ended within its buffers. -/
def Ended (oend : Int) : R → Prop
  | .done op m => 0 ≤ op ∧ op ≤ oend ∧ m.size = oend
  | .err ip m => 0 ≤ ip ∧ m.size = oend
  | _ => False

theorem SeqAt.lt {ip ll lp off ml ip' : Int} (h : SeqAt src ip ll lp off ml ip') : ip < ip' := by
  have h1 := h.lit.le
  have h2 := h.mat.le
  omega

theorem safeLoop_ends (f : Nat) : ∀ {ip op : Int} {m : Mem}, 0 ≤ ip → ip < n → n ≤ src.size → 0 ≤ op → op ≤ oend → m.size = oend → n - ip ≤ f →
    Ended oend (safeLoop src n oend f ip op m) := by
  induction f with
  | zero => intro ip op m _ h1 _ _ _ _ h2; omega
  | succ f ih =>
    intro ip op m h0 h1 h2 h3 h4 h5 h6
    unfold safeLoop
    have hs := safeStep_ok h0 h1 h2 h3 h4 h5
    split
    · rename_i ip' op' m' he
      rw [he] at hs
      obtain ⟨ll, lp, off, ml, a1, a2, a3, a4, a5, a6⟩ := hs
      have hl := a1.lt
      have hll := a1.lit.le
      have hml := a1.mat.le
      exact ih (by omega) a4 h2 (by omega) a5 (a6.lit.size.trans h5) (by omega)
    · rename_i r hr
      revert hs hr
      cases safeStep src n oend ip op m with
      | fail => intro hs; exact hs.elim
      | next a b c => intro _ hr; exact (hr a b c rfl).elim
      | err ip' m' => rintro ⟨a1, a2, _⟩ _; exact ⟨a1, a2.trans h5⟩
      | done op' m' =>
        rintro ⟨ll, lp, a1, a2, a3, a4, a5⟩ _
        have := a1.le
        exact ⟨by omega, a4, a5.size.trans h5⟩

theorem fastLoop_ends (f : Nat) : ∀ {ip op : Int} {m : Mem}, 0 ≤ ip → ip < n → n ≤ src.size → 0 ≤ op → op ≤ oend - 64 → m.size = oend → n - ip ≤ f →
    Ended oend (fastLoop src n oend f ip op m) := by
  induction f with
  | zero => intro ip op m _ h1 _ _ _ _ h2; omega
  | succ f ih =>
    intro ip op m h0 h1 h2 h3 h4 h5 h6
    unfold fastLoop
    have hs := fastStep_ok h0 h1 h2 h3 h4 h5
    split
    · rename_i ip' op' m' he
      rw [he] at hs
      obtain ⟨⟨ll, lp, off, ml, a1, a2, a3, a4, a5, a6⟩, b⟩ := hs
      have hl := a1.lt
      have hll := a1.lit.le
      have hml := a1.mat.le
      exact ih (by omega) a4 h2 (by omega) b (a6.lit.size.trans h5) (by omega)
    · rename_i ip' op' m' he
      rw [he] at hs
      obtain ⟨ll, lp, off, ml, a1, a2, a3, a4, a5, a6⟩ := hs
      have hl := a1.lt
      have hll := a1.lit.le
      have hml := a1.mat.le
      exact safeLoop_ends (f + 1) (by omega) a4 h2 (by omega) a5 (a6.lit.size.trans h5) (by omega)
    · rename_i r hr he
      rw [he] at hs
      cases r with
      | fail => exact hs.elim
      | next a b c => exact (hr a b c rfl).elim
      | err ip' m' => obtain ⟨a1, a2, _⟩ := hs; exact ⟨a1, a2.trans h5⟩
      | done op' m' =>
        obtain ⟨ll, lp, a1, a2, a3, a4, a5⟩ := hs
        have := a1.le
        exact ⟨by omega, a4, a5.size.trans h5⟩

/-- **On every input the decoder ends without undefined behaviour.**  Whatever the `n` bytes of the block are and whatever the buffer of `cap` bytes
held, no read leaves the block or the buffer, no write leaves the buffer, no `memcpy` overlaps, and the answer is at most `cap`. -/
theorem decompress_ends (fast : Bool) (blk : Bytes) (m : Mem) (hm : 0 ≤ m.size) :
    ∃ r m', decompress fast (Mem.of blk) blk.length m.size m = some (r, m') ∧ r ≤ m.size ∧ m'.size = m.size := by
  unfold decompress
  rw [if_neg (by omega)]
  by_cases h0 : m.size = 0
  · rw [if_pos h0]
    by_cases h1 : (blk.length : Int) = 1
    · rw [if_pos h1, get_eq (by omega) (by show (0 : Int) < blk.length; omega)]
      by_cases hb : (Mem.of blk).at' 0 = 0
      · exact ⟨0, m, by simp only [Option.map_some, hb, if_true], by omega, rfl⟩
      · exact ⟨-1, m, by simp only [Option.map_some, if_neg hb], by omega, rfl⟩
    · rw [if_neg h1]
      exact ⟨-1, m, rfl, by omega, rfl⟩
  · rw [if_neg h0]
    by_cases hn : (blk.length : Int) = 0
    · rw [if_pos hn]
      exact ⟨-1, m, rfl, by omega, rfl⟩
    · rw [if_neg hn]
      have hend : Ended m.size (if fast = true ∧ m.size ≥ 64 then fastLoop (Mem.of blk) blk.length m.size ((blk.length : Int).toNat + 1) 0 0 m
          else safeLoop (Mem.of blk) blk.length m.size ((blk.length : Int).toNat + 1) 0 0 m) := by
        have hsz : (Mem.of blk).size = blk.length := rfl
        by_cases hf : fast = true ∧ m.size ≥ 64
        · rw [if_pos hf]
          exact fastLoop_ends _ (by omega) (by omega) (by omega) (by omega) (by omega) rfl (by omega)
        · rw [if_neg hf]
          exact safeLoop_ends _ (by omega) (by omega) (by omega) (by omega) (by omega) rfl (by omega)
      revert hend
      generalize (if fast = true ∧ m.size ≥ 64 then fastLoop (Mem.of blk) blk.length m.size ((blk.length : Int).toNat + 1) 0 0 m
          else safeLoop (Mem.of blk) blk.length m.size ((blk.length : Int).toNat + 1) 0 0 m) = r
      cases r with
      | fail => intro h; exact h.elim
      | next a b c => intro h; exact h.elim
      | err ip m' => intro h; exact ⟨-ip - 1, m', rfl, by have := h.1; omega, h.2⟩
      | done op m' => intro h; exact ⟨op, m', rfl, h.2.1, h.2.2⟩

/-- A block that is not valid: a match before the beginning of the output.  The decoder answers an error. -/
example : ∃ m', decompress true (Mem.of [0x10, 65, 9, 0, 0x50, 1, 2, 3, 4, 5, 6, 7, 8, 9]) 14 30 ⟨30, fun _ => 7⟩ = some (-5, m') ∧
    (∃ r m', decompress true (Mem.of [0x10, 65, 9, 0, 0x50, 1, 2, 3, 4, 5, 6, 7, 8, 9]) 14 30 ⟨30, fun _ => 7⟩ = some (r, m') ∧ r ≤ 30 ∧ m'.size = 30) := by
  refine ⟨_, rfl, ?_⟩
  exact decompress_ends true [0x10, 65, 9, 0, 0x50, 1, 2, 3, 4, 5, 6, 7, 8, 9] ⟨30, fun _ => 7⟩ (by decide)

/-! ## Blocks of the format -/

theorem getD_lt {l : Bytes} {i : Nat} (h : i < l.length) : l.getD i 0 = l[i] := by
  rw [List.getD_eq_getElem?_getD, List.getElem?_eq_getElem h, Option.getD_some]

/-- From `ip` on the buffer holds `l`. -/
def At (m : Mem) (ip : Int) (l : Bytes) : Prop := ∀ (i : Nat) (h : i < l.length), m.at' (ip + i) = l[i]

theorem At.left {m : Mem} {ip : Int} {a b : Bytes} (h : At m ip (a ++ b)) : At m ip a := by
  intro i hi
  rw [h i (by rw [List.length_append]; omega), List.getElem_append_left hi]

theorem At.right {m : Mem} {ip : Int} {a b : Bytes} (h : At m ip (a ++ b)) : At m (ip + a.length) b := by
  intro i hi
  have := h (a.length + i) (by rw [List.length_append]; omega)
  rw [List.getElem_append_right (by omega)] at this
  rw [show ip + (a.length : Int) + (i : Int) = ip + ((a.length + i : Nat) : Int) by omega, this]
  congr 1
  omega

theorem At.append {m : Mem} {ip : Int} {a b : Bytes} (h : At m ip a) (h' : At m (ip + a.length) b) : At m ip (a ++ b) := by
  intro i hi
  by_cases hlt : i < a.length
  · rw [List.getElem_append_left hlt]; exact h i hlt
  · rw [List.getElem_append_right (by omega), ← h' (i - a.length) (by rw [List.length_append] at hi; omega)]
    congr 1
    omega

theorem At.head {m : Mem} {ip : Int} {x : UInt8} {l : Bytes} (h : At m ip (x :: l)) : m.at' ip = x := by
  have := h 0 (by simp)
  simpa using this

theorem At.tail {m : Mem} {ip : Int} {x : UInt8} {l : Bytes} (h : At m ip (x :: l)) : At m (ip + 1) l := by
  have : At m ip ([x] ++ l) := h
  exact this.right

theorem At.of (l : Bytes) : At (Mem.of l) 0 l := by
  intro i hi
  show l.getD ((0 : Int) + i).toNat 0 = _
  rw [show ((0 : Int) + (i : Int)).toNat = i by omega, getD_lt hi]

theorem lenExt_ext {ip : Int} {x : Nat} (h : At src ip (lenExt x)) : Ext src ip x (ip + (lenExt x).length) := by
  have h1 : At src ip (List.replicate (x / 255) 255) := h.left
  have h2 := h.right.head
  rw [List.length_replicate] at h2
  have hlt : x % 255 < 255 := Nat.mod_lt _ (by omega)
  have hv : (UInt8.ofNat (x % 255)).toNat = x % 255 := by rw [UInt8.toNat_ofNat']; omega
  refine ⟨x / 255, fun i hi => ?_, ?_, ?_, ?_⟩
  · rw [h1 i (by rw [List.length_replicate]; exact hi), List.getElem_replicate]
  · rw [h2]
    intro h255
    have := congrArg UInt8.toNat h255
    rw [hv] at this
    have h5 : (255 : UInt8).toNat = 255 := rfl
    omega
  · rw [h2, hv]; omega
  · rw [lenExt, List.length_append, List.length_replicate, List.length_singleton]; omega

theorem litAt_of {ip : Int} {x k : Nat} {rest : Bytes} (hk : k ≤ 15) (h : At src ip (UInt8.ofNat (16 * nibble x + k) :: (lenTail x ++ rest))) :
    LitAt src ip x (ip + 1 + (lenTail x).length) ∧ At src (ip + 1 + (lenTail x).length) rest ∧ (src.at' ip).toNat % 16 = k := by
  have h1 := h.head
  have hn : nibble x ≤ 15 := Nat.min_le_right _ _
  have hv : (src.at' ip).toNat = 16 * nibble x + k := by rw [h1, UInt8.toNat_ofNat']; omega
  by_cases hx : x < 15
  · have hnb : nibble x = x := by unfold nibble; omega
    have ht : lenTail x = [] := if_pos hx
    rw [ht] at h ⊢
    by_cases hk15 : k = 16
    · omega
    · exact ⟨.inl ⟨by omega, by omega, by simp⟩, by simpa using h.tail, by omega⟩
  · have hnb : nibble x = 15 := by unfold nibble; omega
    have ht : lenTail x = lenExt (x - 15) := if_neg hx
    refine ⟨.inr ⟨by omega, ((x - 15 : Nat) : Int), ?_, by omega⟩, h.tail.right, by omega⟩
    rw [ht] at h ⊢
    exact lenExt_ext h.tail.left

theorem seqAt_of {ip : Int} {s : Seq} {rest : Bytes} (h1 : s.off ≤ 65535) (h2 : 4 ≤ s.mlen) (h : At src ip (encSeq s ++ rest)) :
    ∃ lp, SeqAt src ip s.lits.length lp s.off s.mlen (ip + (encSeq s).length) ∧ At src lp s.lits ∧ At src (ip + (encSeq s).length) rest := by
  have hr := h.right
  have ha := h.left
  unfold encSeq at ha
  obtain ⟨b1, b2, b3⟩ := litAt_of (k := nibble (s.mlen - 4)) (Nat.min_le_right _ _) ha
  have c1 := b2.right
  have hlen : ((encSeq s).length : Int) = 1 + (lenTail s.lits.length).length + s.lits.length + 2 + (lenTail (s.mlen - 4)).length := by
    simp only [encSeq, List.length_cons, List.length_append]
    omega
  have hv1 : (UInt8.ofNat (s.off % 256)).toNat = s.off % 256 := by rw [UInt8.toNat_ofNat']; omega
  have hv2 : (UInt8.ofNat (s.off / 256)).toNat = s.off / 256 := by rw [UInt8.toNat_ofNat']; omega
  refine ⟨_, ⟨b1, ?_, ?_⟩, b2.left, hr⟩
  · rw [c1.head, c1.tail.head, hv1, hv2]
    omega
  · have c2 := c1.tail.tail
    rw [Int.add_assoc _ 1 1, show (1 : Int) + 1 = 2 from rfl] at c2
    by_cases hx : s.mlen - 4 < 15
    · have hnb : nibble (s.mlen - 4) = s.mlen - 4 := by unfold nibble; omega
      have ht : lenTail (s.mlen - 4) = [] := if_pos hx
      rw [ht, List.length_nil] at hlen
      exact .inl ⟨by omega, by omega, by omega⟩
    · have hnb : nibble (s.mlen - 4) = 15 := by unfold nibble; omega
      have ht : lenTail (s.mlen - 4) = lenExt (s.mlen - 4 - 15) := if_neg hx
      rw [ht] at c2 hlen
      refine .inr ⟨by omega, ((s.mlen - 4 - 15 : Nat) : Int), ?_, by omega⟩
      have := lenExt_ext c2
      rw [show ip + ((encSeq s).length : Int) = ip + 1 + (lenTail s.lits.length).length + s.lits.length + 2 + (lenExt (s.mlen - 4 - 15)).length by omega]
      exact this

theorem At.copyBack {m : Mem} {out : Bytes} {off k : Nat} (h : At m 0 out) (h1 : 1 ≤ off) (h2 : off ≤ out.length)
    (h3 : ∀ j : Int, out.length ≤ j → j < out.length + k → m.at' j = m.at' (j - off)) : At m 0 (copyBack out off k) := by
  induction k generalizing out with
  | zero => exact h
  | succ k ih =>
    rw [Lz4.copyBack]
    apply ih
    · apply h.append
      intro i hi
      rw [List.length_singleton] at hi
      have hi0 : i = 0 := by omega
      subst hi0
      rw [List.getElem_singleton, getD_lt (by omega), ← h _ (by omega), h3 _ (by omega) (by omega)]
      congr 1
      omega
    · rw [List.length_append]; omega
    · intro j hj1 hj2
      rw [List.length_append, List.length_singleton] at hj1 hj2
      exact h3 j (by omega) (by omega)

theorem Wrote.at {m0 m : Mem} {op0 lp : Int} {s : Seq} {out : Bytes} (h : Wrote src m0 op0 s.lits.length lp s.off s.mlen m) (ho : op0 = out.length) (h0 : At m0 0 out)
    (hl : At src lp s.lits) (h1 : 1 ≤ s.off) (h2 : s.off ≤ out.length + s.lits.length) : At m 0 (Lz4.copyBack (out ++ s.lits) s.off s.mlen) := by
  apply At.copyBack
  · apply At.append
    · intro i hi
      rw [h.lit.front _ (by omega)]
      exact h0 i hi
    · intro i hi
      rw [h.lit.lit _ (by omega) (by omega), ← hl i hi]
      congr 1
      omega
  · exact h1
  · rw [List.length_append]; exact h2
  · intro j hj1 hj2
    rw [List.length_append] at hj1 hj2
    exact h.mat (by omega) j (by omega) (by omega)

/-- The decoder stands before `seqs`, `last` and has written `out`. -/
structure Before (src : Mem) (n oend ip op : Int) (m : Mem) (seqs : List Seq) (last out : Bytes) : Prop where
  hblk : At src ip (block seqs last)
  hn : ip + (block seqs last).length = n
  hop : op = out.length
  hout : At m 0 out
  hsize : m.size = oend
  hvalid : Valid out.length seqs last
  hle : op ≤ oend
  hip : 0 ≤ ip

/-- How the decoder must end. -/
def Right (oend : Int) (res : Bytes) : R → Prop
  | .done op m => op = res.length ∧ op ≤ oend ∧ At m 0 res ∧ m.size = oend
  | .err ip m => 0 ≤ ip ∧ oend < res.length ∧ m.size = oend
  | _ => False

/-- How a round must end. -/
def RightStep (src : Mem) (n oend ip op : Int) (res : Bytes) : R → Prop
  | .next ip' op' m => ip < ip' ∧ op ≤ op' ∧ ∃ seqs last out, Before src n oend ip' op' m seqs last out ∧ play out seqs last = res
  | r => Right oend res r

theorem step_right {ip op : Int} {m : Mem} {seqs : List Seq} {last out : Bytes} {r : R} (hb : Before src n oend ip op m seqs last out) (hok : Ok src n oend ip op m r) :
    RightStep src n oend ip op (play out seqs last) r := by
  have hip := hb.hip
  cases seqs with
  | nil =>
    have hn := hb.hn
    have hblk := hb.hblk
    have hl : UInt8.ofNat (16 * nibble last.length) = UInt8.ofNat (16 * nibble last.length + 0) := rfl
    unfold block encLast at hblk
    rw [hl] at hblk
    obtain ⟨b1, b2, b3⟩ := litAt_of (k := 0) (by omega) hblk
    have hlen : ((block [] last).length : Int) = 1 + (lenTail last.length).length + last.length := by
      simp only [block, encLast, List.length_cons, List.length_append]; omega
    have hpl : ((play out [] last).length : Int) = out.length + last.length := by
      rw [play, List.length_append]; omega
    have hop := hb.hop
    cases r with
    | fail => exact hok.elim
    | next ip' op' m' =>
      obtain ⟨ll, lp, off, ml, a1, a2, a3, a4, a5, a6⟩ := hok
      obtain ⟨rfl, rfl⟩ := b1.det a1.lit
      have := a1.mat.le
      omega
    | done op' m' =>
      obtain ⟨ll, lp, a1, a2, a3, a4, a5⟩ := hok
      obtain ⟨rfl, rfl⟩ := b1.det a1
      refine ⟨by omega, a4, ?_, a5.size.trans hb.hsize⟩
      rw [play]
      apply At.append
      · intro i hi
        rw [a5.front _ (by omega)]
        exact hb.hout i hi
      · intro i hi
        rw [a5.lit _ (by omega) (by omega), ← b2 i hi]
        congr 1
        omega
    | err ip' m' =>
      obtain ⟨a1, a2, a3, a4⟩ := hok
      refine ⟨a1, ?_, a2.trans hb.hsize⟩
      by_cases hlt : oend < ((play out [] last).length : Int)
      · exact hlt
      · exact (a4 _ _ b1 (by omega) (by omega)).elim
  | cons s ss =>
    have hn := hb.hn
    have hblk := hb.hblk
    have hop := hb.hop
    obtain ⟨v1, v2, v3, v4, v5, v6, v7⟩ := hb.hvalid
    rw [block] at hblk hn
    rw [List.length_append] at hn
    obtain ⟨lp, b1, b2, b3⟩ := seqAt_of v2 v4 hblk
    have hlast := last_lt_block ss last
    have hlo := last_le_outLen ss last
    have hpl : (play out (s :: ss) last).length = out.length + (s.lits.length + s.mlen + outLen ss last) := by rw [play_length, outLen]
    cases r with
    | fail => exact hok.elim
    | next ip' op' m' =>
      obtain ⟨ll, lp', off, ml, a1, a2, a3, a4, a5, a6⟩ := hok
      obtain ⟨rfl, rfl, rfl, rfl, rfl⟩ := b1.det a1
      have hlt := b1.lt
      refine ⟨hlt, by omega, ss, last, Lz4.copyBack (out ++ s.lits) s.off s.mlen, ⟨b3, by omega, ?_, ?_, ?_, ?_, a5, by omega⟩, rfl⟩
      · rw [copyBack_length, List.length_append]; omega
      · exact a6.at hop hb.hout b2 v1 v3
      · exact a6.lit.size.trans hb.hsize
      · rw [copyBack_length, List.length_append]; exact v7
    | done op' m' =>
      obtain ⟨ll, lp', a1, a2, a3, a4, a5⟩ := hok
      obtain ⟨rfl, rfl⟩ := b1.lit.det a1
      have := b1.mat.le
      omega
    | err ip' m' =>
      obtain ⟨a1, a2, a3, a4⟩ := hok
      refine ⟨a1, ?_, a2.trans hb.hsize⟩
      by_cases hlt : oend < ((play out (s :: ss) last).length : Int)
      · exact hlt
      · exact (a3 _ _ _ _ _ b1 (by omega) (by omega) (by omega) (by omega)).elim

theorem Before.lt {ip op : Int} {m : Mem} {seqs : List Seq} {last out : Bytes} (hb : Before src n oend ip op m seqs last out) : ip < n := by
  have := last_lt_block seqs last
  have := hb.hn
  omega

theorem safeLoop_right (f : Nat) (res : Bytes) (hn : n ≤ src.size) : ∀ {ip op : Int} {m : Mem} {seqs : List Seq} {last out : Bytes}, Before src n oend ip op m seqs last out →
    play out seqs last = res → n - ip ≤ f → Right oend res (safeLoop src n oend f ip op m) := by
  induction f with
  | zero => intro ip op m seqs last out h _ h2; have := h.lt; omega
  | succ f ih =>
    intro ip op m seqs last out hb hp hf
    have hop := hb.hop
    have hs := step_right hb (safeStep_ok hb.hip hb.lt hn (by omega) hb.hle hb.hsize)
    rw [hp] at hs
    unfold safeLoop
    split
    · rename_i ip' op' m' he
      rw [he] at hs
      obtain ⟨a1, _, ss, l, o, a2, a3⟩ := hs
      exact ih a2 a3 (by omega)
    · rename_i r hr
      revert hs hr
      cases safeStep src n oend ip op m with
      | fail => intro hs; exact hs.elim
      | next a b c => intro _ hr; exact (hr a b c rfl).elim
      | err ip' m' => intro hs _; exact hs
      | done op' m' => intro hs _; exact hs

theorem fastLoop_right (f : Nat) (res : Bytes) (hn : n ≤ src.size) : ∀ {ip op : Int} {m : Mem} {seqs : List Seq} {last out : Bytes}, Before src n oend ip op m seqs last out →
    play out seqs last = res → op ≤ oend - 64 → n - ip ≤ f → Right oend res (fastLoop src n oend f ip op m) := by
  induction f with
  | zero => intro ip op m seqs last out h _ _ h2; have := h.lt; omega
  | succ f ih =>
    intro ip op m seqs last out hb hp h64 hf
    have hop := hb.hop
    have hs0 := fastStep_ok hb.hip hb.lt hn (by omega) h64 hb.hsize
    unfold fastLoop
    split
    · rename_i ip' op' m' he
      rw [he] at hs0
      have hs := step_right hb hs0.1
      rw [hp] at hs
      obtain ⟨a1, _, ss, l, o, a2, a3⟩ := hs
      exact ih a2 a3 hs0.2 (by omega)
    · rename_i ip' op' m' he
      rw [he] at hs0
      have hs := step_right (r := .next ip' op' m') hb hs0
      rw [hp] at hs
      obtain ⟨a1, _, ss, l, o, a2, a3⟩ := hs
      exact safeLoop_right (f + 1) res hn a2 a3 (by omega)
    · rename_i r hr he
      rw [he] at hs0
      have hs := step_right (r := r) hb hs0
      rw [hp] at hs
      cases r with
      | fail => exact hs.elim
      | next a b c => exact (hr a b c rfl).elim
      | err ip' m' => exact hs
      | done op' m' => exact hs

/-- **The decoder answers exactly what the block means.**  For every list of sequences and last literals that keep the rules of the format, and every
buffer: if the meaning fits, the answer is its length and the buffer begins with it; if it does not, the answer is negative. -/
theorem decompress_block (fast : Bool) (seqs : List Seq) (last : Bytes) (m : Mem) (hv : Valid 0 seqs last) (hm : 0 ≤ m.size) :
    ∃ r m', decompress fast (Mem.of (block seqs last)) (block seqs last).length m.size m = some (r, m') ∧ m'.size = m.size ∧
      ((outLen seqs last : Int) ≤ m.size → r = outLen seqs last ∧ ∀ (i : Nat) (h : i < (play [] seqs last).length), m'.at' i = (play [] seqs last)[i]) ∧
      (m.size < outLen seqs last → r < 0) := by
  have hlen := last_lt_block seqs last
  have hpl : (play [] seqs last).length = outLen seqs last := by rw [play_length]; simp
  unfold decompress
  rw [if_neg (by omega)]
  by_cases h0 : m.size = 0
  · rw [if_pos h0]
    cases seqs with
    | nil =>
      cases last with
      | nil =>
        rw [if_pos (by decide), show ((Mem.of (block [] ([] : Bytes))).get 0) = some 0 by decide]
        refine ⟨0, m, rfl, rfl, fun _ => ⟨rfl, fun i hi => ?_⟩, fun h => ?_⟩
        · exact absurd hi (by simp [play])
        · simp only [outLen, List.length_nil] at h; omega
      | cons x l =>
        rw [if_neg (by rw [List.length_cons] at hlen; omega)]
        refine ⟨-1, m, rfl, rfl, fun h => ?_, fun _ => by omega⟩
        simp only [outLen, List.length_cons] at h
        omega
    | cons s ss =>
      have hv5 := hv.2.2.2.2.1
      have hv4 := hv.2.2.2.1
      rw [if_neg (by omega)]
      refine ⟨-1, m, rfl, rfl, fun h => ?_, fun _ => by omega⟩
      rw [outLen] at h
      omega
  · rw [if_neg h0, if_neg (by omega)]
    have hend : Right m.size (play [] seqs last) (if fast = true ∧ m.size ≥ 64
          then fastLoop (Mem.of (block seqs last)) (block seqs last).length m.size (((block seqs last).length : Int).toNat + 1) 0 0 m
          else safeLoop (Mem.of (block seqs last)) (block seqs last).length m.size (((block seqs last).length : Int).toNat + 1) 0 0 m) := by
      have hsz : (Mem.of (block seqs last)).size = (block seqs last).length := rfl
      have hb : Before (Mem.of (block seqs last)) (block seqs last).length m.size 0 0 m seqs last [] :=
        ⟨At.of _, by omega, rfl, fun i hi => absurd hi (by simp), rfl, hv, hm, by omega⟩
      by_cases hf : fast = true ∧ m.size ≥ 64
      · rw [if_pos hf]
        exact fastLoop_right _ _ (by omega) hb rfl (by omega) (by omega)
      · rw [if_neg hf]
        exact safeLoop_right _ _ (by omega) hb rfl (by omega)
    revert hend
    generalize (if fast = true ∧ m.size ≥ 64
          then fastLoop (Mem.of (block seqs last)) (block seqs last).length m.size (((block seqs last).length : Int).toNat + 1) 0 0 m
          else safeLoop (Mem.of (block seqs last)) (block seqs last).length m.size (((block seqs last).length : Int).toNat + 1) 0 0 m) = r
    cases r with
    | fail => intro h; exact h.elim
    | next a b c => intro h; exact h.elim
    | err ip m' =>
      rintro ⟨h1, h2, h3⟩
      exact ⟨-ip - 1, m', rfl, h3, fun h => by omega, fun _ => by omega⟩
    | done op m' =>
      rintro ⟨h1, h2, h3, h4⟩
      refine ⟨op, m', rfl, h4, fun _ => ⟨by omega, fun i hi => ?_⟩, fun h => by omega⟩
      have := h3 i hi
      rw [Int.zero_add] at this
      exact this

/-- A run of one byte, a match that overlaps itself, more than fifteen literals: 300 bytes from 38. -/
example : Valid 0 [⟨[65], 1, 275⟩, ⟨[1, 2, 3, 4, 5, 6, 7], 9, 4⟩] [1, 2, 3, 4, 5, 6, 7, 8, 9, 10, 11, 12, 13] ∧
    outLen [⟨[65], 1, 275⟩, ⟨[1, 2, 3, 4, 5, 6, 7], 9, 4⟩] [1, 2, 3, 4, 5, 6, 7, 8, 9, 10, 11, 12, 13] = 300 ∧
    block [⟨[65], 1, 275⟩, ⟨[1, 2, 3, 4, 5, 6, 7], 9, 4⟩] [1, 2, 3, 4, 5, 6, 7, 8, 9, 10, 11, 12, 13] =
      [0x1f, 65, 1, 0, 255, 1, 0x70, 1, 2, 3, 4, 5, 6, 7, 9, 0, 0xd0, 1, 2, 3, 4, 5, 6, 7, 8, 9, 10, 11, 12, 13] := by decide +kernel

end
end Verif.Lz4
