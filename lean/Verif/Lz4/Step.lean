import Mathlib.Tactic.Common
import Verif.Lz4.Copy

/-!
One round of the decoder, for every input: it stays inside the buffers; if it goes on it has read a sequence of the LZ4 format and appended what the sequence says; it
gives up only if there is no well-formed sequence or no room.
-/

namespace Verif.Lz4

variable {src : Mem} {n oend : Int}

/-! ### Literals -/

/-- `m` was made from `m0` by writing at and behind `op`, up to `d` the bytes of `src` from `ip` on. -/
structure Lit (src m0 : Mem) (op ip : Int) (m : Mem) (d : Int) : Prop where
  size : m.size = m0.size
  front : ∀ j < op, m.at' j = m0.at' j
  lit : ∀ j, op ≤ j → j < d → m.at' j = src.at' (ip + (j - op))

theorem Lit.mono {m0 m : Mem} {op ip d d' : Int} (h : Lit src m0 op ip m d) (hd : d' ≤ d) : Lit src m0 op ip m d' :=
  ⟨h.size, h.front, fun j h1 h2 => h.lit j h1 (by omega)⟩

theorem Lit.start (m : Mem) (op ip : Int) : Lit src m op ip m op := ⟨rfl, fun _ _ => rfl, fun _ _ _ => by omega⟩

theorem Lit.copy {m0 m : Mem} {op ip d s c : Int} (h : Lit src m0 op ip m d) (hd : 0 ≤ op) (hod : op ≤ d) (hsz : d + c ≤ m0.size) (hs : 0 ≤ s)
    (hs' : s + c ≤ src.size) (he : s - ip = d - op) : ∃ m', m.copyFrom d src s c = some m' ∧ Lit src m0 op ip m' (d + c) := by
  unfold Mem.copyFrom
  rw [if_pos ⟨hs, hs'⟩]
  refine ⟨_, store_eq (by omega) (by rw [h.size]; omega), ⟨h.size, ?_, ?_⟩⟩
  · intro j hj
    simp only
    rw [if_neg (by omega)]
    exact h.front j hj
  · intro j h1 h2
    simp only
    by_cases hj : d ≤ j ∧ j < d + c
    · rw [if_pos hj]
      congr 1; omega
    · rw [if_neg hj]
      exact h.lit j h1 (by omega)

theorem Lit.wild8 {m0 m : Mem} {op ip d s e : Int} {f : Nat} (h : Lit src m0 op ip m d) (hd : 0 ≤ op) (hod : op ≤ d) (hf : rounds d e ≤ f)
    (hsz : d + 8 ≤ m0.size) (hsz' : e + 7 ≤ m0.size) (hs : 0 ≤ s) (hs8 : s + 8 ≤ src.size) (hse : s + (e - d) + 7 ≤ src.size) (he : s - ip = d - op) :
    ∃ m', wild8From src f m d s e = some m' ∧ Lit src m0 op ip m' e := by
  induction f generalizing m d s with
  | zero => unfold rounds at hf; omega
  | succ f ih =>
    obtain ⟨m1, h1, h2⟩ := h.copy hd hod hsz hs hs8 he
    unfold wild8From
    rw [h1]
    simp only [Option.bind_some]
    by_cases hlt : d + 8 < e
    · rw [if_pos hlt]
      refine ih h2 (by omega) ?_ (by omega) (by omega) (by omega) (by omega) (by omega)
      unfold rounds at hf ⊢; omega
    · rw [if_neg hlt]
      exact ⟨m1, rfl, h2.mono (by omega)⟩

theorem Lit.wild32 {m0 m : Mem} {op ip d s e : Int} {f : Nat} (h : Lit src m0 op ip m d) (hd : 0 ≤ op) (hod : op ≤ d) (hf : rounds d e ≤ f)
    (hsz : d + 32 ≤ m0.size) (hsz' : e + 31 ≤ m0.size) (hs : 0 ≤ s) (hs8 : s + 32 ≤ src.size) (hse : s + (e - d) + 31 ≤ src.size) (he : s - ip = d - op) :
    ∃ m', wild32From src f m d s e = some m' ∧ Lit src m0 op ip m' e := by
  induction f generalizing m d s with
  | zero => unfold rounds at hf; omega
  | succ f ih =>
    obtain ⟨m1, h1, h2⟩ := h.copy (c := 16) hd hod (by omega) hs (by omega) he
    obtain ⟨m2, h3, h4⟩ := h2.copy (c := 16) (s := s + 16) hd (by omega) (by omega) (by omega) (by omega) (by omega)
    unfold wild32From
    rw [h1]
    simp only [Option.bind_some, h3]
    by_cases hlt : d + 32 < e
    · rw [if_pos hlt]
      refine ih (d := d + 32) (s := s + 32) (h4.mono (by omega)) (by omega) ?_ (by omega) (by omega) (by omega) (by omega) (by omega)
      unfold rounds at hf ⊢; omega
    · rw [if_neg hlt]
      exact ⟨m2, rfl, h4.mono (by omega)⟩

/-! ### Lengths -/

/-- At `ip` stands a length `x`: bytes 255 and a last byte less than 255, up to `ip'`. -/
def Ext (src : Mem) (ip x ip' : Int) : Prop :=
  ∃ k : Nat, (∀ i < k, src.at' (ip + i) = 255) ∧ src.at' (ip + k) ≠ 255 ∧ x = 255 * k + (src.at' (ip + k)).toNat ∧ ip' = ip + k + 1

theorem Ext.det {ip x ip' y iq : Int} (h : Ext src ip x ip') (h' : Ext src ip y iq) : x = y ∧ ip' = iq := by
  obtain ⟨k, a1, a2, a3, a4⟩ := h
  obtain ⟨l, b1, b2, b3, b4⟩ := h'
  have : k = l := by
    rcases Nat.lt_trichotomy k l with hlt | he | hlt
    · exact absurd (b1 k hlt) a2
    · exact he
    · exact absurd (a1 l hlt) b2
  subst this
  exact ⟨by omega, by omega⟩

theorem Ext.lt {ip x ip' : Int} (h : Ext src ip x ip') : ip < ip' ∧ 0 ≤ x := by
  obtain ⟨k, _, _, a3, a4⟩ := h
  omega

theorem Ext.cons {ip x ip' : Int} (h : Ext src (ip + 1) x ip') (h0 : src.at' ip = 255) : Ext src ip (x + 255) ip' := by
  obtain ⟨k, a1, a2, a3, a4⟩ := h
  have hk : ip + ((k + 1 : Nat) : Int) = ip + 1 + k := by push_cast; omega
  refine ⟨k + 1, ?_, by rw [hk]; exact a2, by rw [hk]; push_cast; omega, by push_cast; omega⟩
  intro i hi
  cases i with
  | zero => simpa using h0
  | succ i =>
    have : ip + ((i + 1 : Nat) : Int) = ip + 1 + i := by push_cast; omega
    rw [this]; exact a1 i (by omega)

theorem Ext.uncons {ip x ip' : Int} (h : Ext src ip x ip') (h0 : src.at' ip = 255) : Ext src (ip + 1) (x - 255) ip' := by
  obtain ⟨k, a1, a2, a3, a4⟩ := h
  cases k with
  | zero => exact absurd (by simpa using h0) a2
  | succ k =>
    have hk : ip + ((k + 1 : Nat) : Int) = ip + 1 + k := by push_cast; omega
    rw [hk] at a2 a3
    refine ⟨k, ?_, a2, by push_cast at a3; omega, by push_cast at a4; omega⟩
    intro i hi
    have : ip + 1 + (i : Int) = ip + ((i + 1 : Nat) : Int) := by push_cast; omega
    rw [this]; exact a1 (i + 1) (by omega)

theorem get_eq {m : Mem} {i : Int} (h0 : 0 ≤ i) (h : i < m.size) : m.get i = some (m.at' i) := by unfold Mem.get; rw [if_pos ⟨h0, h⟩]

theorem readLoop_spec {limit : Int} {f : Nat} {ip len : Int} (h0 : 0 ≤ ip) (hl : limit < src.size) (hip : ip < src.size) (hf : rounds ip limit + 1 ≤ f) :
    (∃ ip', readLoop src limit f ip len = .err ip' ∧ 0 ≤ ip' ∧ ∀ x i', Ext src ip x i' → limit < i') ∨
    (∃ x ip', readLoop src limit f ip len = .ok (len + x) ip' ∧ Ext src ip x ip' ∧ ip' ≤ limit) := by
  induction f generalizing ip len with
  | zero => omega
  | succ f ih =>
    unfold readLoop
    rw [get_eq h0 hip]
    simp only
    by_cases h1 : ip + 1 > limit
    · rw [if_pos h1]
      refine .inl ⟨_, rfl, by omega, fun x i' he => ?_⟩
      have := he.lt
      omega
    · rw [if_neg h1]
      by_cases h2 : src.at' ip = 255
      · rw [if_neg (by simpa using h2)]
        rcases ih (ip := ip + 1) (len := len + (src.at' ip).toNat) (by omega) (by omega) (by unfold rounds at hf ⊢; omega) with ⟨ip', a, b, c⟩ | ⟨x, ip', a, b, c⟩
        · exact .inl ⟨ip', a, b, fun x i' he => c _ _ (he.uncons h2)⟩
        · refine .inr ⟨x + 255, ip', ?_, b.cons h2, c⟩
          rw [a, h2]
          have : ((255 : UInt8).toNat : Int) = 255 := by decide
          rw [this, Int.add_assoc, Int.add_comm 255]
      · rw [if_pos h2]
        exact .inr ⟨(src.at' ip).toNat, ip + 1, rfl, ⟨0, by simp, by simpa using h2, by simp, by simp⟩, by omega⟩

theorem readLen_spec {limit : Int} {c : Bool} {ip : Int} (h0 : 0 ≤ ip) (hl : limit < src.size) (hip : c = true ∨ ip < src.size) :
    (∃ ip', readLen src limit c ip = .err ip' ∧ 0 ≤ ip' ∧ ∀ x i', Ext src ip x i' → limit < i') ∨
    (∃ x ip', readLen src limit c ip = .ok x ip' ∧ Ext src ip x ip' ∧ ip' ≤ limit) := by
  unfold readLen
  by_cases h : c = true ∧ ip ≥ limit
  · rw [if_pos h]
    exact .inl ⟨ip, rfl, h0, fun x i' he => by have := he.lt; omega⟩
  · rw [if_neg h]
    have hlt : ip < src.size := by
      rcases hip with hc | hip
      · have : ¬ ip ≥ limit := fun hh => h ⟨hc, hh⟩
        omega
      · exact hip
    rcases readLoop_spec (len := 0) h0 hl hlt (Nat.le_refl _) with h | ⟨x, ip', a, b, c⟩
    · exact .inl h
    · exact .inr ⟨x, ip', by rw [a, Int.zero_add], b, c⟩

/-! ### What stands in the input -/

/-- At `ip` stands a token announcing `ll` literals, which begin at `lp`. -/
def LitAt (src : Mem) (ip ll lp : Int) : Prop :=
  ((src.at' ip).toNat / 16 ≠ 15 ∧ ll = ((src.at' ip).toNat / 16 : Int) ∧ lp = ip + 1) ∨
  ((src.at' ip).toNat / 16 = 15 ∧ ∃ x, Ext src (ip + 1) x lp ∧ ll = 15 + x)

/-- The token at `ip` announces a match of length `ml`, whose length code ends at `ip'` if it begins at `q`. -/
def MatAt (src : Mem) (ip q ml ip' : Int) : Prop :=
  ((src.at' ip).toNat % 16 ≠ 15 ∧ ml = ((src.at' ip).toNat % 16 : Int) + 4 ∧ ip' = q) ∨
  ((src.at' ip).toNat % 16 = 15 ∧ ∃ x, Ext src q x ip' ∧ ml = 19 + x)

/-- At `ip` stands a sequence: literals from `lp` on, offset, match; behind it is `ip'`. -/
structure SeqAt (src : Mem) (ip ll lp off ml ip' : Int) : Prop where
  lit : LitAt src ip ll lp
  off : off = (src.at' (lp + ll)).toNat + 256 * (src.at' (lp + ll + 1)).toNat
  mat : MatAt src ip (lp + ll + 2) ml ip'

theorem LitAt.det {ip ll lp ll' lp' : Int} (h : LitAt src ip ll lp) (h' : LitAt src ip ll' lp') : ll = ll' ∧ lp = lp' := by
  rcases h with ⟨a1, a2, a3⟩ | ⟨a1, x, a2, a3⟩ <;> rcases h' with ⟨b1, b2, b3⟩ | ⟨b1, y, b2, b3⟩
  · exact ⟨by omega, by omega⟩
  · exact absurd b1 a1
  · exact absurd a1 b1
  · obtain ⟨rfl, rfl⟩ := a2.det b2
    exact ⟨by omega, rfl⟩

theorem MatAt.det {ip q ml ip' ml' iq : Int} (h : MatAt src ip q ml ip') (h' : MatAt src ip q ml' iq) : ml = ml' ∧ ip' = iq := by
  rcases h with ⟨a1, a2, a3⟩ | ⟨a1, x, a2, a3⟩ <;> rcases h' with ⟨b1, b2, b3⟩ | ⟨b1, y, b2, b3⟩
  · exact ⟨by omega, by omega⟩
  · exact absurd b1 a1
  · exact absurd a1 b1
  · obtain ⟨rfl, rfl⟩ := a2.det b2
    exact ⟨by omega, rfl⟩

theorem SeqAt.det {ip ll lp off ml ip' ll' lp' off' ml' iq : Int} (h : SeqAt src ip ll lp off ml ip') (h' : SeqAt src ip ll' lp' off' ml' iq) :
    ll = ll' ∧ lp = lp' ∧ off = off' ∧ ml = ml' ∧ ip' = iq := by
  obtain ⟨rfl, rfl⟩ := h.lit.det h'.lit
  obtain ⟨rfl, rfl⟩ := h.mat.det h'.mat
  exact ⟨rfl, rfl, h.off.trans h'.off.symm, rfl, rfl⟩

theorem LitAt.le {ip ll lp : Int} (h : LitAt src ip ll lp) : ip < lp ∧ 0 ≤ ll := by
  rcases h with ⟨_, a2, a3⟩ | ⟨_, x, a2, a3⟩
  · omega
  · have := a2.lt; omega

theorem MatAt.le {ip q ml ip' : Int} (h : MatAt src ip q ml ip') : q ≤ ip' ∧ 4 ≤ ml := by
  rcases h with ⟨_, a2, a3⟩ | ⟨_, x, a2, a3⟩
  · omega
  · have := a2.lt; omega

/-! ### One round -/

/-- What was written for a sequence. -/
structure Wrote (src m0 : Mem) (op0 ll lp off ml : Int) (m : Mem) : Prop where
  lit : Lit src m0 op0 lp m (op0 + ll)
  mat : 0 < off → ∀ j, op0 + ll ≤ j → j < op0 + ll + ml → m.at' j = m.at' (j - off)

/-- What a round from `ip0`, `op0`, `m0` does. -/
def Ok (src : Mem) (n oend ip0 op0 : Int) (m0 : Mem) : R → Prop
  | .fail => False
  | .next ip op m => ∃ ll lp off ml, SeqAt src ip0 ll lp off ml ip ∧ off ≤ op0 + ll ∧ op = op0 + ll + ml ∧ ip < n ∧ op ≤ oend ∧ Wrote src m0 op0 ll lp off ml m
  | .done op m => ∃ ll lp, LitAt src ip0 ll lp ∧ lp + ll = n ∧ op = op0 + ll ∧ op ≤ oend ∧ Lit src m0 op0 lp m (op0 + ll)
  | .err ip m => 0 ≤ ip ∧ m.size = m0.size ∧
      (∀ ll lp off ml ip', SeqAt src ip0 ll lp off ml ip' → off ≤ op0 + ll → op0 + ll + 12 ≤ oend → op0 + ll + ml + 5 ≤ oend → ip' + 6 ≤ n → False) ∧
      ∀ ll lp, LitAt src ip0 ll lp → lp + ll = n → op0 + ll ≤ oend → False

theorem wrote_of {m0 m1 m2 : Mem} {op0 ll lp off ml : Int} (h1 : Lit src m0 op0 lp m1 (op0 + ll)) (hl : 0 ≤ ll)
    (h2 : Per m1 (op0 + ll) off m2 (op0 + ll + ml)) : Wrote src m0 op0 ll lp off ml m2 := by
  refine ⟨⟨h2.size.trans h1.size, fun j hj => ?_, fun j ha hb => ?_⟩, fun h0 j ha hb => h2.back h0 ha hb⟩
  · rw [h2.front j (by omega)]; exact h1.front j hj
  · rw [h2.front j (by omega)]; exact h1.lit j ha hb

theorem safeMatch_ok {ip0 op0 : Int} {m0 m : Mem} {ll lp off ml ip op mat : Int} (hsq : SeqAt src ip0 ll lp off ml ip) (hop : op = op0 + ll)
    (hm : Lit src m0 op0 lp m (op0 + ll)) (hmat : mat = op - off) (hoff : 0 ≤ off) (h0 : 0 ≤ op0) (hsz : m0.size = oend) (hro : op + 12 ≤ oend) (hip : 0 ≤ ip)
    (hipn : ip < n) (hq : lp + ll < n) : Ok src n oend ip0 op0 m0 (safeMatch oend ml off mat ip op m) := by
  have hms : m.size = oend := hm.size.trans hsz
  have hll := hsq.lit.le
  have hml := hsq.mat.le
  have herr : ∀ m' : Mem, m'.size = m0.size → (off ≤ op0 + ll → op0 + ll + ml + 5 ≤ oend → False) → Ok src n oend ip0 op0 m0 (.err ip m') := by
    intro m' hm' hr
    refine ⟨hip, hm', fun ll' lp' off' ml' ip' hs r1 r2 r3 r4 => ?_, fun ll' lp' hl he _ => ?_⟩
    · obtain ⟨rfl, rfl, rfl, rfl, rfl⟩ := hsq.det hs
      exact hr r1 r3
    · obtain ⟨rfl, rfl⟩ := hsq.lit.det hl
      omega
  unfold safeMatch
  by_cases hneg : mat < 0
  · rw [if_pos hneg]
    exact herr m hm.size (by omega)
  · rw [if_neg hneg]
    obtain ⟨m1, s1, a1, p1, b1, b2, b3⟩ := first8_per (m := m) (op := op) hmat (by omega) hoff (by omega)
    simp only [a1]
    have hnext : ∀ m2 : Mem, Per m op off m2 (op + ml) → op + ml ≤ oend → Ok src n oend ip0 op0 m0 (.next ip (op + ml) m2) := by
      intro m2 p2 hle
      subst hop
      exact ⟨ll, lp, off, ml, hsq, by omega, rfl, hipn, hle, wrote_of hm hll.2 p2⟩
    by_cases hc1 : op + ml > oend - 12
    · rw [if_pos hc1]
      by_cases hc2 : op + ml > oend - 5
      · rw [if_pos hc2]
        exact herr m1 (p1.size.trans hm.size) (by omega)
      · rw [if_neg hc2]
        by_cases hc3 : op + 8 < oend - 7
        · rw [if_pos hc3]
          obtain ⟨m2, a2, p2⟩ := p1.wild8 (e := oend - 7) (f := rounds (op + 8) (oend - 7)) (by omega) (by omega) (Nat.le_refl _) (by omega) (by omega) b1 (by omega) b3
          rw [a2]
          simp only [Option.bind_some]
          obtain ⟨m3, a3, p3⟩ := p2.bytewise (s := s1 + (oend - 7 - (op + 8))) (k := (op + ml - (oend - 7)).toNat) (by omega) (by omega) (by omega) (by omega) (by omega)
            (fun h => ⟨by have := (b3 h).1; omega, by omega, (b3 h).2.choose, by have := (b3 h).2.choose_spec; omega⟩)
          rw [a3]
          exact hnext m3 (p3.mono (by omega)) (by omega)
        · rw [if_neg hc3]
          obtain ⟨m3, a3, p3⟩ := p1.bytewise (s := s1) (k := (op + ml - (op + 8)).toNat) (by omega) (by omega) (by omega) (by omega) (by omega)
            (fun h => ⟨by have := (b3 h).1; omega, by omega, (b3 h).2⟩)
          rw [a3]
          exact hnext m3 (p3.mono (by omega)) (by omega)
    · rw [if_neg hc1]
      obtain ⟨m2, a2, p2⟩ := p1.copy (c := 8) (s := s1) (by omega) (by omega) (by omega) b1 (by omega) (by omega) b3
      rw [a2]
      simp only [Option.bind_some]
      by_cases hc4 : ml > 16
      · rw [if_pos hc4]
        obtain ⟨m3, a3, p3⟩ := p2.wild8 (s := s1 + 8) (e := op + ml) (f := rounds (op + 8) (op + ml)) (by omega) (by omega) (by unfold rounds; omega) (by omega) (by omega)
          (by omega) (by omega) (fun h => ⟨by have := (b3 h).1; omega, (b3 h).2.choose, by have := (b3 h).2.choose_spec; omega⟩)
        rw [a3]
        exact hnext m3 p3 (by omega)
      · rw [if_neg hc4]
        exact hnext m2 (p2.mono (by omega)) (by omega)

theorem copyMatch_ok {ip0 op0 : Int} {m0 m : Mem} {ll lp off ip op mat : Int} (hlit : LitAt src ip0 ll lp)
    (hoffe : off = (src.at' (lp + ll)).toNat + 256 * (src.at' (lp + ll + 1)).toNat) (hop : op = op0 + ll) (hip : ip = lp + ll + 2)
    (hm : Lit src m0 op0 lp m (op0 + ll)) (hmat : mat = op - off) (h0 : 0 ≤ op0) (hsz : m0.size = oend) (hro : op + 12 ≤ oend) (hip0 : 0 ≤ ip0)
    (hipn : ip < n) (hn : n ≤ src.size) : Ok src n oend ip0 op0 m0 (copyMatch src n oend ((src.at' ip0).toNat % 16 : Int) off mat ip op m) := by
  have hll := hlit.le
  unfold copyMatch
  by_cases h15 : ((src.at' ip0).toNat % 16 : Int) = 15
  · rw [if_pos h15]
    rcases readLen_spec (src := src) (limit := n - 5 + 1) (c := false) (ip := ip) (by omega) (by omega) (.inr (by omega)) with ⟨ip', a, b, c⟩ | ⟨x, ip', a, b, c⟩
    · rw [a]
      refine ⟨b, hm.size, fun ll' lp' off' ml' iq hs r1 r2 r3 r4 => ?_, fun ll' lp' hl he _ => ?_⟩
      · obtain ⟨rfl, rfl⟩ := hlit.det hs.lit
        rcases hs.mat with ⟨c1, _, _⟩ | ⟨_, y, c2, c3⟩
        · omega
        · rw [← hip] at c2
          have := c y iq c2
          omega
      · obtain ⟨rfl, rfl⟩ := hlit.det hl
        omega
    · rw [a]
      simp only
      have hb := b.lt
      refine safeMatch_ok (ll := ll) (lp := lp) ⟨hlit, hoffe, .inr ⟨by omega, x, by rw [← hip]; exact b, by omega⟩⟩ hop hm hmat (by omega) h0 hsz hro (by omega) (by omega) (by omega)
  · rw [if_neg h15]
    exact safeMatch_ok (ll := ll) (lp := lp) ⟨hlit, hoffe, .inl ⟨by omega, rfl, hip⟩⟩ hop hm hmat (by omega) h0 hsz hro (by omega) hipn (by omega)

theorem read16_eq {i : Int} (h0 : 0 ≤ i) (h : i + 1 < src.size) : read16 src i = some ((src.at' i).toNat + 256 * (src.at' (i + 1)).toNat : Int) := by
  unfold read16
  rw [get_eq h0 (by omega), get_eq (by omega) h]
  rfl

theorem safeLit_ok {ip0 op0 : Int} {m0 : Mem} {ll lp : Int} (hlit : LitAt src ip0 ll lp) (h0 : 0 ≤ op0) (ho : op0 ≤ oend) (hsz : m0.size = oend) (hip0 : 0 ≤ ip0)
    (hn : n ≤ src.size) : Ok src n oend ip0 op0 m0 (safeLit src n oend (src.at' ip0).toNat ll lp op0 m0) := by
  have hll := hlit.le
  unfold safeLit
  simp only
  by_cases hc : op0 + ll > oend - 12 ∨ lp + ll > n - 8
  · rw [if_pos hc]
    by_cases hc2 : lp + ll ≠ n ∨ op0 + ll > oend
    · rw [if_pos hc2]
      refine ⟨by omega, rfl, fun ll' lp' off' ml' iq hs r1 r2 r3 r4 => ?_, fun ll' lp' hl he hr => ?_⟩
      · obtain ⟨rfl, rfl⟩ := hlit.det hs.lit
        have := hs.mat.le
        omega
      · obtain ⟨rfl, rfl⟩ := hlit.det hl
        omega
    · rw [if_neg hc2]
      obtain ⟨m1, a1, l1⟩ := (Lit.start m0 op0 lp).copy (src := src) (s := lp) (c := ll) h0 (by omega) (by omega) (by omega) (by omega) (by omega)
      rw [a1]
      exact ⟨ll, lp, hlit, by omega, rfl, by omega, l1⟩
  · rw [if_neg hc]
    obtain ⟨m1, a1, l1⟩ := (Lit.start m0 op0 lp).wild8 (src := src) (s := lp) (e := op0 + ll) (f := rounds op0 (op0 + ll)) h0 (by omega) (Nat.le_refl _) (by omega) (by omega)
      (by omega) (by omega) (by omega) (by omega)
    rw [a1]
    simp only
    rw [read16_eq (by omega) (by omega)]
    exact copyMatch_ok hlit rfl rfl rfl l1 rfl h0 hsz (by omega) hip0 (by omega) hn

/-- The two copies of eight bytes and the one of two, `/repo/src/lz4.c:2156-2158,2252-2254`. -/
theorem copy18 {m : Mem} {op off mat : Int} (hmat : mat = op - off) (hm0 : 0 ≤ mat) (h8 : 8 ≤ off) (hsz : op + 18 ≤ m.size) :
    ∃ m', ((m.copy op mat 8).bind fun m => (m.copy (op + 8) (mat + 8) 8).bind fun m => m.copy (op + 16) (mat + 16) 2) = some m' ∧ Per m op off m' (op + 18) := by
  obtain ⟨m1, a1, p1⟩ := (Per.start m op off).copy (c := 8) (s := mat) (by omega) (by omega) (by omega) hm0 (by omega) (by omega) (fun _ => ⟨by omega, 1, by omega⟩)
  obtain ⟨m2, a2, p2⟩ := p1.copy (c := 8) (s := mat + 8) (by omega) (by omega) (by omega) (by omega) (by omega) (by omega) (fun _ => ⟨by omega, 1, by omega⟩)
  obtain ⟨m3, a3, p3⟩ := p2.copy (c := 2) (s := mat + 16) (by omega) (by omega) (by omega) (by omega) (by omega) (by omega) (fun _ => ⟨by omega, 1, by omega⟩)
  refine ⟨m3, ?_, p3.mono (by omega)⟩
  rw [a1, Option.bind_some, a2, Option.bind_some]
  rw [show op + 16 = op + 8 + 8 by omega]
  exact a3

theorem safeStep_ok {ip0 op0 : Int} {m0 : Mem} (hip0 : 0 ≤ ip0) (hipn : ip0 < n) (hn : n ≤ src.size) (h0 : 0 ≤ op0) (ho : op0 ≤ oend) (hsz : m0.size = oend) :
    Ok src n oend ip0 op0 m0 (safeStep src n oend ip0 op0 m0) := by
  unfold safeStep
  rw [get_eq hip0 (by omega)]
  simp only
  have hb : (src.at' ip0).toNat < 256 := (src.at' ip0).toNat_lt
  by_cases hc : ((src.at' ip0).toNat / 16 : Int) ≠ 15 ∧ ip0 + 1 < n - 16 ∧ op0 ≤ oend - 32
  · rw [if_pos hc]
    obtain ⟨hc1, hc2, hc3⟩ := hc
    obtain ⟨m1, a1, l1⟩ := (Lit.start m0 op0 (ip0 + 1)).copy (src := src) (s := ip0 + 1) (c := 16) h0 (by omega) (by omega) (by omega) (by omega) (by omega)
    rw [a1]
    simp only
    rw [read16_eq (by omega) (by omega)]
    simp only
    have hlit : LitAt src ip0 ((src.at' ip0).toNat / 16 : Int) (ip0 + 1) := .inl ⟨by omega, rfl, rfl⟩
    have l2 := l1.mono (d' := op0 + ((src.at' ip0).toNat / 16 : Int)) (by omega)
    generalize hll : ((src.at' ip0).toNat / 16 : Int) = ll at *
    generalize hoff : ((src.at' (ip0 + 1 + ll)).toNat + 256 * (src.at' (ip0 + 1 + ll + 1)).toNat : Int) = off at *
    by_cases hd : ((src.at' ip0).toNat % 16 : Int) ≠ 15 ∧ off ≥ 8 ∧ op0 + ll - off ≥ 0
    · rw [if_pos hd]
      have hms : m1.size = oend := l1.size.trans hsz
      obtain ⟨m2, a2, p2⟩ := copy18 (m := m1) (op := op0 + ll) (off := off) rfl (by omega) (by omega) (by omega)
      rw [a2]
      exact ⟨ll, ip0 + 1, off, _, ⟨hlit, hoff.symm, .inl ⟨by omega, rfl, rfl⟩⟩, by omega, rfl, by omega, by omega, wrote_of l2 hlit.le.2 (p2.mono (by omega))⟩
    · rw [if_neg hd]
      exact copyMatch_ok hlit hoff.symm rfl rfl l2 rfl h0 hsz (by omega) hip0 (by omega) hn
  · rw [if_neg hc]
    by_cases h15 : ((src.at' ip0).toNat / 16 : Int) = 15
    · rw [if_pos h15]
      rcases readLen_spec (src := src) (limit := n - 15) (c := true) (ip := ip0 + 1) (by omega) (by omega) (.inl rfl) with ⟨ip', a, b, c⟩ | ⟨x, ip', a, b, c⟩
      · rw [a]
        refine ⟨b, rfl, fun ll' lp' off' ml' iq hs r1 r2 r3 r4 => ?_, fun ll' lp' hl he hr => ?_⟩
        · have hq := hs.mat.le
          rcases hs.lit with ⟨c1, _, _⟩ | ⟨_, y, c2, c3⟩
          · omega
          · have := c y _ c2
            have := c2.lt
            omega
        · rcases hl with ⟨c1, _, _⟩ | ⟨_, y, c2, c3⟩
          · omega
          · have := c y _ c2
            have := c2.lt
            omega
      · rw [a]
        simp only
        exact safeLit_ok (.inr ⟨by omega, x, b, by omega⟩) h0 ho hsz hip0 hn
    · rw [if_neg h15]
      exact safeLit_ok (.inl ⟨by omega, rfl, rfl⟩) h0 ho hsz hip0 hn

/-- What a round of the fast loop does. -/
def OkF (src : Mem) (n oend ip0 op0 : Int) (m0 : Mem) : (Int × Int × Mem) ⊕ R → Prop
  | .inl (ip, op, m) => Ok src n oend ip0 op0 m0 (.next ip op m) ∧ op ≤ oend - 64
  | .inr r => Ok src n oend ip0 op0 m0 r

theorem fastMatch_ok {ip0 op0 : Int} {m0 m : Mem} {ll lp : Int} (hlit : LitAt src ip0 ll lp)
    (hm : Lit src m0 op0 lp m (op0 + ll)) (h0 : 0 ≤ op0) (hsz : m0.size = oend) (hro : op0 + ll + 32 ≤ oend) (hip0 : 0 ≤ ip0)
    (hipn : lp + ll + 2 < n) (hn : n ≤ src.size) : OkF src n oend ip0 op0 m0 (fastMatch src n oend (src.at' ip0).toNat (lp + ll) (op0 + ll) m) := by
  have hll := hlit.le
  have hms : m.size = oend := hm.size.trans hsz
  unfold fastMatch
  rw [read16_eq (by omega) (by omega)]
  simp only
  generalize hoff : ((src.at' (lp + ll)).toNat + 256 * (src.at' (lp + ll + 1)).toNat : Int) = off at *
  have hgo : ∀ ml ip', MatAt src ip0 (lp + ll + 2) ml ip' → ip' < n → op0 + ll + ml < oend - 64 → OkF src n oend ip0 op0 m0
      (if op0 + ll - off < 0 then .inr (.err ip' m)
      else
        match if off < 16 then copyOffset m (op0 + ll) (op0 + ll - off) (op0 + ll + ml) off
          else wild32 (rounds (op0 + ll) (op0 + ll + ml)) m (op0 + ll) (op0 + ll - off) (op0 + ll + ml) with
        | none => .inr .fail
        | some m => .inl (ip', op0 + ll + ml, m)) := by
    intro ml ip' hmat hlt hr
    have hml := hmat.le
    by_cases hneg : op0 + ll - off < 0
    · rw [if_pos hneg]
      refine ⟨by omega, hm.size, fun ll' lp' off' ml' iq hs r1 r2 r3 r4 => ?_, fun ll' lp' hl he _ => ?_⟩
      · obtain ⟨rfl, rfl⟩ := hlit.det hs.lit
        have := hs.off
        omega
      · obtain ⟨rfl, rfl⟩ := hlit.det hl
        omega
    · rw [if_neg hneg]
      have hfin : ∀ m2, Per m (op0 + ll) off m2 (op0 + ll + ml) → OkF src n oend ip0 op0 m0 (.inl (ip', op0 + ll + ml, m2)) := by
        intro m2 p2
        exact ⟨⟨ll, lp, off, ml, ⟨hlit, hoff.symm, hmat⟩, by omega, rfl, hlt, by omega, wrote_of hm hll.2 p2⟩, by omega⟩
      by_cases h16 : off < 16
      · rw [if_pos h16]
        obtain ⟨m2, a2, p2⟩ := copyOffset_per (m := m) (op := op0 + ll) (e := op0 + ll + ml) (off := off) rfl (by omega) (by omega) (by omega) (by omega)
        rw [a2]
        exact hfin m2 p2
      · rw [if_neg h16]
        obtain ⟨m2, a2, p2⟩ := (Per.start m (op0 + ll) off).wild32 (s := op0 + ll - off) (e := op0 + ll + ml) (f := rounds (op0 + ll) (op0 + ll + ml)) (by omega) (by omega)
          (Nat.le_refl _) (by omega) (by omega) (by omega) (by omega) (fun _ => ⟨by omega, 1, by omega⟩)
        rw [a2]
        exact hfin m2 p2
  have hsafe : ∀ ml ip', MatAt src ip0 (lp + ll + 2) ml ip' → ip' < n → OkF src n oend ip0 op0 m0 (.inr (safeMatch oend ml off (op0 + ll - off) ip' (op0 + ll) m)) := by
    intro ml ip' hmat hlt
    have hml := hmat.le
    exact safeMatch_ok ⟨hlit, hoff.symm, hmat⟩ rfl hm rfl (by omega) h0 hsz (by omega) (by omega) hlt (by omega)
  by_cases h15 : ((src.at' ip0).toNat % 16 : Int) = 15
  · rw [if_pos h15]
    rcases readLen_spec (src := src) (limit := n - 5 + 1) (c := false) (ip := lp + ll + 2) (by omega) (by omega) (.inr (by omega)) with ⟨ip', a, b, c⟩ | ⟨x, ip', a, b, c⟩
    · rw [a]
      refine ⟨b, hm.size, fun ll' lp' off' ml' iq hs r1 r2 r3 r4 => ?_, fun ll' lp' hl he _ => ?_⟩
      · obtain ⟨rfl, rfl⟩ := hlit.det hs.lit
        rcases hs.mat with ⟨c1, _, _⟩ | ⟨_, y, c2, c3⟩
        · omega
        · have := c y iq c2
          omega
      · obtain ⟨rfl, rfl⟩ := hlit.det hl
        omega
    · rw [a]
      simp only
      have hmat : MatAt src ip0 (lp + ll + 2) (15 + x + 4) ip' := .inr ⟨by omega, x, b, by omega⟩
      by_cases hr : op0 + ll + (15 + x + 4) ≥ oend - 64
      · rw [if_pos hr]
        exact hsafe _ _ hmat (by omega)
      · rw [if_neg hr]
        exact hgo _ _ hmat (by omega) (by omega)
  · rw [if_neg h15]
    have hmat : MatAt src ip0 (lp + ll + 2) ((src.at' ip0).toNat % 16 + 4 : Int) (lp + ll + 2) := .inl ⟨by omega, rfl, rfl⟩
    by_cases hr : op0 + ll + ((src.at' ip0).toNat % 16 + 4 : Int) ≥ oend - 64
    · rw [if_pos hr]
      exact hsafe _ _ hmat (by omega)
    · rw [if_neg hr]
      by_cases h8 : op0 + ll - off ≥ 0 ∧ off ≥ 8
      · rw [if_pos h8]
        obtain ⟨m2, a2, p2⟩ := copy18 (m := m) (op := op0 + ll) (off := off) rfl (by omega) (by omega) (by omega)
        rw [a2]
        exact ⟨⟨ll, lp, off, _, ⟨hlit, hoff.symm, hmat⟩, by omega, rfl, by omega, by omega, wrote_of hm hll.2 (p2.mono (by omega))⟩, by omega⟩
      · rw [if_neg h8]
        exact hgo _ _ hmat (by omega) (by omega)

theorem fastStep_ok {ip0 op0 : Int} {m0 : Mem} (hip0 : 0 ≤ ip0) (hipn : ip0 < n) (hn : n ≤ src.size) (h0 : 0 ≤ op0) (ho : op0 ≤ oend - 64) (hsz : m0.size = oend) :
    OkF src n oend ip0 op0 m0 (fastStep src n oend ip0 op0 m0) := by
  unfold fastStep
  rw [get_eq hip0 (by omega)]
  simp only
  have hb : (src.at' ip0).toNat < 256 := (src.at' ip0).toNat_lt
  by_cases h15 : ((src.at' ip0).toNat / 16 : Int) = 15
  · rw [if_pos h15]
    rcases readLen_spec (src := src) (limit := n - 15) (c := true) (ip := ip0 + 1) (by omega) (by omega) (.inl rfl) with ⟨ip', a, b, c⟩ | ⟨x, ip', a, b, c⟩
    · rw [a]
      refine ⟨b, rfl, fun ll' lp' off' ml' iq hs r1 r2 r3 r4 => ?_, fun ll' lp' hl he hr => ?_⟩
      · have hq := hs.mat.le
        rcases hs.lit with ⟨c1, _, _⟩ | ⟨_, y, c2, c3⟩
        · omega
        · have := c y _ c2
          have := c2.lt
          omega
      · rcases hl with ⟨c1, _, _⟩ | ⟨_, y, c2, c3⟩
        · omega
        · have := c y _ c2
          have := c2.lt
          omega
    · rw [a]
      simp only
      have hlit : LitAt src ip0 (((src.at' ip0).toNat / 16 : Int) + x) ip' := .inr ⟨by omega, x, b, by omega⟩
      generalize hll : ((src.at' ip0).toNat / 16 : Int) + x = ll at *
      have hle := hlit.le
      by_cases hr : op0 + ll > oend - 32 ∨ ip' + ll > n - 32
      · rw [if_pos hr]
        exact safeLit_ok hlit h0 (by omega) hsz hip0 hn
      · rw [if_neg hr]
        obtain ⟨m1, a1, l1⟩ := (Lit.start m0 op0 ip').wild32 (src := src) (s := ip') (e := op0 + ll) (f := rounds op0 (op0 + ll)) h0 (by omega) (Nat.le_refl _) (by omega)
          (by omega) (by omega) (by omega) (by omega) (by omega)
        rw [a1]
        exact fastMatch_ok hlit l1 h0 hsz (by omega) hip0 (by omega) hn
  · rw [if_neg h15]
    have hlit : LitAt src ip0 ((src.at' ip0).toNat / 16 : Int) (ip0 + 1) := .inl ⟨by omega, rfl, rfl⟩
    by_cases h17 : ip0 + 1 ≤ n - 17
    · rw [if_pos h17]
      obtain ⟨m1, a1, l1⟩ := (Lit.start m0 op0 (ip0 + 1)).copy (src := src) (s := ip0 + 1) (c := 16) h0 (by omega) (by omega) (by omega) (by omega) (by omega)
      rw [a1]
      exact fastMatch_ok hlit (l1.mono (by omega)) h0 hsz (by omega) hip0 (by omega) hn
    · rw [if_neg h17]
      exact safeLit_ok hlit h0 (by omega) hsz hip0 hn

end Verif.Lz4
