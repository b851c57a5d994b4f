import Verif.Lz4.Decode
import Verif.Lz4.Count

/-!
The compressor writes a block of the format that means its input, stays inside its buffers and ends.
-/

namespace Verif.Lz4

/-! ## Writing -/

section
variable {src m : Mem} {l : Bytes}

theorem put_eq {i : Int} {b : UInt8} (h0 : 0 ≤ i) (h1 : i < m.size) : m.put i b = some { m with at' := fun j => if j = i then b else m.at' j } := by
  unfold Mem.put
  rw [if_pos ⟨h0, h1⟩]

theorem At.frame {m' : Mem} (h : At m 0 l) (hf : ∀ j < (l.length : Int), m'.at' j = m.at' j) : At m' 0 l := by
  intro i hi
  rw [hf _ (by omega)]
  exact h i hi

theorem put_at {op : Int} {b : UInt8} (h : At m 0 l) (hop : op = l.length) (hs : op < m.size) :
    ∃ m', m.put op b = some m' ∧ At m' 0 (l ++ [b]) ∧ m'.size = m.size := by
  refine ⟨_, put_eq (by omega) hs, ?_, rfl⟩
  apply At.append
  · apply h.frame
    intro j hj
    simp only
    rw [if_neg (by omega)]
  · intro i hi
    rw [List.length_singleton] at hi
    have : i = 0 := by omega
    subst this
    simp only [List.getElem_singleton]
    rw [if_pos (by omega)]

theorem lenExt_lt {x : Nat} (h : x < 255) : lenExt x = [UInt8.ofNat x] := by
  unfold lenExt
  rw [Nat.div_eq_of_lt h, Nat.mod_eq_of_lt h]
  rfl

theorem lenExt_ge {x : Nat} (h : 255 ≤ x) : lenExt x = 255 :: lenExt (x - 255) := by
  unfold lenExt
  rw [show x / 255 = (x - 255) / 255 + 1 by omega, show (x - 255) % 255 = x % 255 by omega, List.replicate_succ, List.cons_append]

theorem lenExt_length (x : Nat) : (lenExt x).length = x / 255 + 1 := by
  rw [lenExt, List.length_append, List.length_replicate, List.length_singleton]

theorem putLen_spec (f : Nat) : ∀ {m : Mem} {l : Bytes} {op len : Int}, At m 0 l → op = l.length → 0 ≤ len → op + len / 255 + 1 ≤ m.size → len < f →
    ∃ m', putLen f m op len = some (op + len / 255 + 1, m') ∧ At m' 0 (l ++ lenExt len.toNat) ∧ m'.size = m.size := by
  induction f with
  | zero => intro m l op len _ _ _ _ h; omega
  | succ f ih =>
    intro m l op len h1 h2 h3 h4 h5
    unfold putLen
    by_cases hc : len ≥ 255
    · rw [if_pos hc]
      obtain ⟨m1, a1, a2, a3⟩ := put_at (b := 255) h1 h2 (by omega)
      rw [a1, Option.bind_some]
      obtain ⟨m2, b1, b2, b3⟩ := ih (op := op + 1) (len := len - 255) a2 (by rw [List.length_append, List.length_singleton]; omega) (by omega) (by omega) (by omega)
      refine ⟨m2, ?_, ?_, b3.trans a3⟩
      · rw [b1]; congr 2; omega
      · rw [lenExt_ge (by omega), show len.toNat - 255 = (len - 255).toNat by omega]
        simpa using b2
    · rw [if_neg hc]
      obtain ⟨m1, a1, a2, a3⟩ := put_at (b := UInt8.ofNat len.toNat) h1 h2 (by omega)
      rw [a1, Option.map_some]
      refine ⟨m1, by congr 2; omega, ?_, a3⟩
      rw [lenExt_lt (by omega)]
      exact a2

theorem lenTail_length (x : Nat) : (lenTail x).length = if x < 15 then 0 else (x - 15) / 255 + 1 := by
  unfold lenTail
  split
  · rfl
  · rw [lenExt_length]

theorem putLits_spec {op : Int} {len : Nat} (h : At m 0 l) (hop : op = l.length) (hs : op + 1 + (lenTail len).length ≤ m.size) :
    ∃ m', putLits m op len = some (op + 1 + (lenTail len).length, m') ∧ At m' 0 (l ++ UInt8.ofNat (16 * nibble len) :: lenTail len) ∧ m'.size = m.size := by
  have ht := lenTail_length len
  unfold putLits
  by_cases hc : (len : Int) ≥ 15
  · rw [if_pos hc]
    obtain ⟨m1, a1, a2, a3⟩ := put_at (b := 240) h hop (by omega)
    rw [a1, Option.bind_some]
    rw [if_neg (by omega)] at ht
    obtain ⟨m2, b1, b2, b3⟩ := putLen_spec (((len : Int) - 15).toNat + 1) (op := op + 1) (len := (len : Int) - 15) a2 (by rw [List.length_append, List.length_singleton]; omega)
      (by omega) (by omega) (by omega)
    refine ⟨m2, ?_, ?_, b3.trans a3⟩
    · rw [b1]; congr 2; omega
    · rw [show nibble len = 15 by unfold nibble; omega, lenTail, if_neg (by omega), show len - 15 = ((len : Int) - 15).toNat by omega]
      simpa using b2
  · rw [if_neg hc]
    obtain ⟨m1, a1, a2, a3⟩ := put_at (b := UInt8.ofNat ((len : Int) * 16).toNat) h hop (by omega)
    rw [a1, Option.map_some]
    rw [if_pos (by omega)] at ht
    refine ⟨m1, by congr 2; omega, ?_, a3⟩
    rw [show nibble len = len by unfold nibble; omega, lenTail, if_pos (by omega), show 16 * len = ((len : Int) * 16).toNat by omega]
    exact a2

/-- `k` bytes of a buffer. -/
def slice (src : Mem) (a : Int) (k : Nat) : Bytes := (List.range k).map fun i : Nat => src.at' (a + i)

theorem slice_length (a : Int) (k : Nat) : (slice src a k).length = k := by rw [slice, List.length_map, List.length_range]

theorem slice_at (a : Int) (k : Nat) : At src a (slice src a k) := by
  intro i hi
  simp only [slice, List.getElem_map, List.getElem_range]

/-- Up to `op` nothing changed, from there on come `k` bytes of `src`. -/
theorem Lit.at {m' : Mem} {op a : Int} {k : Nat} (h : At m 0 l) (hop : op = l.length) (hl : Lit src m op a m' (op + k)) : At m' 0 (l ++ slice src a k) := by
  apply At.append
  · exact h.frame fun j hj => hl.front j (by omega)
  · intro i hi
    rw [slice_length] at hi
    rw [hl.lit _ (by omega) (by omega)]
    simp only [slice, List.getElem_map, List.getElem_range]
    congr 1
    omega

theorem emitLits_spec {op a : Int} {k : Nat} (h : At m 0 l) (hop : op = l.length) (hs : op + 1 + (lenTail k).length + k + 8 ≤ m.size) (ha : 0 ≤ a) (hk : a + k + 8 ≤ src.size) :
    ∃ m', emitLits src m op a (a + k) = some (op + 1 + (lenTail k).length + k, m') ∧
      At m' 0 (l ++ UInt8.ofNat (16 * nibble k) :: (lenTail k ++ slice src a k)) ∧ m'.size = m.size := by
  unfold emitLits
  rw [show a + (k : Int) - a = k by omega]
  obtain ⟨m1, a1, a2, a3⟩ := putLits_spec (len := k) h hop (by omega)
  rw [a1, Option.bind_some]
  simp only
  have hlen : op + 1 + ((lenTail k).length : Int) = (l ++ UInt8.ofNat (16 * nibble k) :: lenTail k).length := by
    simp only [List.length_append, List.length_cons]; omega
  obtain ⟨m2, b1, b2⟩ := (Lit.start m1 (op + 1 + (lenTail k).length) a).wild8 (src := src) (s := a) (e := op + 1 + (lenTail k).length + k)
    (f := rounds (op + 1 + (lenTail k).length) (op + 1 + (lenTail k).length + k)) (by omega) (by omega) (Nat.le_refl _) (by omega) (by omega) (by omega) (by omega) (by omega) (by omega)
  rw [b1, Option.map_some]
  refine ⟨m2, rfl, ?_, b2.size.trans a3⟩
  have := Lit.at a2 hlen b2
  simpa using this

theorem lastLits_spec {op a : Int} {k : Nat} (h : At m 0 l) (hop : op = l.length) (hs : op + 1 + (lenTail k).length + k ≤ m.size) (ha : 0 ≤ a) (hk : a + k ≤ src.size) :
    ∃ m', lastLits src (a + k) m op a = some (((l ++ encLast (slice src a k)).length : Int), m') ∧ At m' 0 (l ++ encLast (slice src a k)) ∧ m'.size = m.size := by
  unfold lastLits
  rw [show a + (k : Int) - a = k by omega]
  obtain ⟨m1, a1, a2, a3⟩ := putLits_spec (len := k) h hop (by omega)
  rw [a1, Option.bind_some]
  simp only
  have hlen : op + 1 + ((lenTail k).length : Int) = (l ++ UInt8.ofNat (16 * nibble k) :: lenTail k).length := by
    simp only [List.length_append, List.length_cons]; omega
  obtain ⟨m2, b1, b2⟩ := (Lit.start m1 (op + 1 + (lenTail k).length) a).copy (src := src) (s := a) (c := k) (by omega) (by omega) (by omega) (by omega) (by omega) (by omega)
  rw [b1, Option.map_some]
  refine ⟨m2, ?_, ?_, b2.size.trans a3⟩
  · congr 2
    simp only [encLast, List.length_append, List.length_cons, slice_length]
    omega
  · have := Lit.at a2 hlen b2
    rw [encLast, slice_length]
    simpa using this

theorem addToken_spec {r : Bytes} {a : UInt8} {token x : Int} (h : At m 0 (l ++ a :: r)) (ht : token = l.length) (hs : token < m.size) :
    ∃ m', addToken m token x = some m' ∧ At m' 0 (l ++ (a + UInt8.ofNat x.toNat) :: r) ∧ m'.size = m.size := by
  have hl := h.left
  have hr := h.right
  have hh := hr.head
  rw [Int.zero_add] at hh
  unfold addToken
  rw [get_eq (by omega) hs, Option.bind_some, put_eq (by omega) hs]
  refine ⟨_, rfl, ?_, rfl⟩
  apply At.append
  · apply hl.frame
    intro j hj
    simp only
    rw [if_neg (by omega)]
  · intro i hi
    simp only
    cases i with
    | zero =>
      rw [if_pos (by omega), List.getElem_cons_zero, ht, hh]
    | succ i =>
      rw [if_neg (by omega)]
      have := hr (i + 1) (by simpa using hi)
      simpa using this

theorem store_at {op : Int} (h : At m 0 l) (hop : op = l.length) (hs : op + 4 ≤ m.size) :
    ∃ m', m.store op 4 (fun _ => 255) = some m' ∧ At m' 0 (l ++ List.replicate 4 255) ∧ m'.size = m.size := by
  refine ⟨_, store_eq (by omega) hs, ?_, rfl⟩
  apply At.append
  · apply h.frame
    intro j hj
    simp only
    rw [if_neg (by omega)]
  · intro i hi
    rw [List.length_replicate] at hi
    simp only [List.getElem_replicate]
    rw [if_pos (by omega)]

theorem putMatch_spec (f : Nat) : ∀ {m : Mem} {l : Bytes} {op mc : Int}, At m 0 (l ++ List.replicate 4 255) → op = l.length → 0 ≤ mc → op + mc / 255 + 5 ≤ m.size → mc < f →
    ∃ m', putMatch f m op mc = some (op + mc / 255 + 1, m') ∧ At m' 0 (l ++ lenExt mc.toNat) ∧ m'.size = m.size := by
  induction f with
  | zero => intro m l op mc _ _ _ _ h; omega
  | succ f ih =>
    intro m l op mc h1 h2 h3 h4 h5
    unfold putMatch
    by_cases hc : mc ≥ 1020
    · rw [if_pos hc]
      obtain ⟨m1, a1, a2, a3⟩ := store_at (op := op + 4) h1 (by rw [List.length_append, List.length_replicate]; omega) (by omega)
      rw [a1, Option.bind_some]
      obtain ⟨m2, b1, b2, b3⟩ := ih (op := op + 4) (mc := mc - 1020) a2 (by rw [List.length_append, List.length_replicate]; omega) (by omega) (by omega) (by omega)
      refine ⟨m2, ?_, ?_, b3.trans a3⟩
      · rw [b1]; congr 2; omega
      · rw [lenExt_ge (by omega), lenExt_ge (x := mc.toNat - 255) (by omega), lenExt_ge (x := mc.toNat - 255 - 255) (by omega), lenExt_ge (x := mc.toNat - 255 - 255 - 255) (by omega),
          show mc.toNat - 255 - 255 - 255 - 255 = (mc - 1020).toNat by omega]
        simpa [List.replicate] using b2
    · rw [if_neg hc]
      have hsplit : List.replicate 4 (255 : UInt8) = List.replicate (mc / 255).toNat 255 ++ List.replicate (4 - (mc / 255).toNat) 255 := by
        rw [List.replicate_append_replicate, show (mc / 255).toNat + (4 - (mc / 255).toNat) = 4 by omega]
      rw [hsplit, ← List.append_assoc] at h1
      obtain ⟨m1, a1, a2, a3⟩ := put_at (op := op + mc / 255) (b := UInt8.ofNat (mc % 255).toNat) h1.left
        (by rw [List.length_append, List.length_replicate]; omega) (by omega)
      rw [a1, Option.map_some]
      refine ⟨m1, rfl, ?_, a3⟩
      rw [lenExt, show mc.toNat / 255 = (mc / 255).toNat by omega, show mc.toNat % 255 = (mc % 255).toNat by omega, ← List.append_assoc]
      exact a2

theorem ofNat_add' (a b : Nat) : UInt8.ofNat a + UInt8.ofNat b = UInt8.ofNat (a + b) := (UInt8.ofNat_add a b).symm

/-- The match part of a sequence is written behind the literals. -/
theorem emitMatch_spec {n token op ip mat : Int} {r : Bytes} {a : Nat} (h : At m 0 (l ++ UInt8.ofNat a :: r)) (ht : token = l.length) (hop : op = (l ++ UInt8.ofNat a :: r).length)
    (hmat : 0 ≤ mat) (hlt : mat < ip) (hoff : ip - mat ≤ 65535) (hip : ip + 4 ≤ n - 5) (hn : n ≤ src.size)
    (hs : op + 2 + (n - ip) / 255 + 8 ≤ m.size) :
    ∃ (mc : Nat) (m' : Mem), emitMatch src n m token op ip mat = some (ip + (mc + 4), op + 2 + (lenTail mc).length, m') ∧ Run src (ip + 4) (mat + 4) (n - 5) mc ∧
      At m' 0 (l ++ UInt8.ofNat (a + nibble mc) :: (r ++ (UInt8.ofNat ((ip - mat).toNat % 256) :: UInt8.ofNat ((ip - mat).toNat / 256) :: lenTail mc))) ∧ m'.size = m.size := by
  unfold emitMatch
  obtain ⟨m1, a1, a2, a3⟩ := put_at (b := UInt8.ofNat ((ip - mat) % 256).toNat) h hop (by omega)
  obtain ⟨m2, b1, b2, b3⟩ := put_at (op := op + 1) (b := UInt8.ofNat ((ip - mat) / 256 % 256).toNat) a2 (by rw [List.length_append, List.length_singleton]; omega) (by omega)
  obtain ⟨k, c1, c2⟩ := count_spec (src := src) (p := ip + 4) (q := mat + 4) (limit := n - 5) (by omega) (by omega) (by omega) hip
  obtain ⟨mc, rfl⟩ := Int.eq_ofNat_of_zero_le c2.1
  have hk := c2.2.1
  rw [a1, Option.bind_some, b1, Option.bind_some, c1, Option.bind_some]
  have e1 : (ip - mat).toNat % 256 = ((ip - mat) % 256).toNat := by omega
  have e2 : (ip - mat).toNat / 256 = ((ip - mat) / 256 % 256).toNat := by omega
  rw [← e1, ← e2, List.append_assoc, List.append_assoc, List.cons_append] at b2
  have hlt' : token < m2.size := by
    rw [b3, a3]
    simp only [List.length_append, List.length_cons] at hop
    omega
  have htl := lenTail_length mc
  by_cases hc : ((mc : Nat) : Int) ≥ 15
  · rw [if_pos hc]
    obtain ⟨m3, d1, d2, d3⟩ := addToken_spec (x := 15) b2 ht hlt'
    rw [d1, Option.bind_some]
    have hlen : ∀ z : UInt8, op + 2 = (l ++ z :: (r ++ ([UInt8.ofNat ((ip - mat).toNat % 256)] ++ [UInt8.ofNat ((ip - mat).toNat / 256)]))).length := by
      intro z
      simp only [List.length_append, List.length_cons, List.length_nil] at hop ⊢
      omega
    obtain ⟨m4, f1, f2, f3⟩ := store_at (op := op + 2) d2 (hlen _) (by omega)
    rw [f1, Option.bind_some]
    obtain ⟨m5, g1, g2, g3⟩ := putMatch_spec (((mc : Nat) : Int) - 15).toNat.succ (mc := ((mc : Nat) : Int) - 15) f2 (hlen _) (by omega) (by omega) (by omega)
    rw [g1, Option.map_some]
    rw [if_neg (by omega)] at htl
    refine ⟨mc, m5, ?_, c2, ?_, by rw [g3, f3, d3, b3, a3]⟩
    · simp only
      congr 3
      omega
    · rw [ofNat_add'] at g2
      rw [show nibble mc = (15 : Int).toNat by unfold nibble; omega, lenTail, if_neg (by omega), show mc - 15 = (((mc : Nat) : Int) - 15).toNat by omega]
      simpa using g2
  · rw [if_neg hc]
    obtain ⟨m3, d1, d2, d3⟩ := addToken_spec (x := ((mc : Nat) : Int)) b2 ht hlt'
    rw [d1, Option.map_some]
    rw [if_pos (by omega)] at htl
    refine ⟨mc, m3, by rw [htl]; simp, c2, ?_, by rw [d3, b3, a3]⟩
    rw [ofNat_add'] at d2
    rw [show nibble mc = ((mc : Nat) : Int).toNat by unfold nibble; omega, lenTail, if_pos (by omega)]
    simpa using d2

end

/-! ## Searching -/

section
variable {src : Mem} {n : Int} {u16 : Bool}

/-- All entries of the table are positions before `b`. -/
def Ent (t : Tab) (b : Int) : Prop := ∀ h, 0 ≤ t h ∧ t h < b

theorem Ent.mono {t : Tab} {b c : Int} (h : Ent t b) (hbc : b ≤ c) : Ent t c := fun x => ⟨(h x).1, by have := (h x).2; omega⟩

theorem hashPos_eq {p : Int} (h0 : 0 ≤ p) (h1 : p + 8 ≤ src.size) : ∃ h, hashPos src u16 p = some h ∧ h < tabSize u16 := by
  unfold hashPos tabSize
  cases u16 with
  | true =>
    refine ⟨hash4 (leVal src p 4), ?_, ?_⟩
    · rw [if_pos rfl, readLE_eq h0 (by omega)]; rfl
    · rw [if_pos rfl, hash4]; omega
  | false =>
    refine ⟨hash5 (leVal src p 8), ?_, ?_⟩
    · rw [if_neg (by decide), readLE_eq h0 (by omega)]; rfl
    · rw [if_neg (by decide), hash5]; omega

theorem tput_eq {t : Tab} {h : Nat} {i b : Int} (hh : h < tabSize u16) (he : Ent t b) (h0 : 0 ≤ i) (hib : i < b) (h32 : i < 2 ^ 32) (h16 : u16 = true → i < 65536) :
    ∃ t', tput u16 t h i = some t' ∧ Ent t' b := by
  unfold tput
  rw [if_pos hh]
  refine ⟨_, rfl, fun x => ?_⟩
  by_cases hx : x = h
  · rw [if_pos hx]
    cases u16 with
    | true => rw [if_pos rfl]; have := h16 rfl; omega
    | false => rw [if_neg (by decide)]; omega
  · rw [if_neg hx]
    exact he x

/-- A match was found at `ip`. -/
structure Hit (src : Mem) (n : Int) (ip mat : Int) (t : Tab) : Prop where
  lo : 0 ≤ mat
  lt : mat < ip
  far : ip - mat ≤ 65535
  lim : ip < n - 11
  ent : Ent t (ip + 1)
  same : Same src ip mat 4

theorem search_spec (hn : n ≤ src.size) (hn31 : n < 2 ^ 31) (h16 : u16 = true → n < 65547) (f : Nat) : ∀ {fip step nb : Int} {h : Nat} {t : Tab}, 1 ≤ fip → fip ≤ n - 11 → 1 ≤ step →
    64 ≤ nb → h < tabSize u16 → Ent t fip → n - fip < f →
    search src n u16 f fip step nb h t = .last ∨ ∃ ip mat t', search src n u16 f fip step nb h t = .found ip mat t' ∧ fip ≤ ip ∧ Hit src n ip mat t' := by
  induction f with
  | zero => intro fip step nb h t _ _ _ _ _ _ h7; omega
  | succ f ih =>
    intro fip step nb h t h1 h2 h3 h4 h5 h6 h7
    unfold search
    rw [tget, if_pos h5]
    simp only
    by_cases hl : fip + step > n - 11
    · rw [if_pos hl]; exact .inl rfl
    · rw [if_neg hl]
      obtain ⟨h', a1, a2⟩ := hashPos_eq (src := src) (u16 := u16) (p := fip + step) (by omega) (by omega)
      obtain ⟨t', b1, b2⟩ := tput_eq (b := fip + 1) (i := fip) h5 (h6.mono (by omega)) (by omega) (by omega) (by omega) (fun hu => by have := h16 hu; omega)
      rw [a1, b1]
      simp only
      have hgo : search src n u16 f (fip + step) (nb / 64) (nb + 1) h' t' = .last ∨
          ∃ ip mat t'', search src n u16 f (fip + step) (nb / 64) (nb + 1) h' t' = .found ip mat t'' ∧ fip ≤ ip ∧ Hit src n ip mat t'' := by
        rcases ih (step := nb / 64) (nb := nb + 1) (h := h') (t := t') (fip := fip + step) (by omega) (by omega) (by omega) (by omega) a2 (b2.mono (by omega)) (by omega) with
          c | ⟨ip, mat, t'', c1, c2, c3⟩
        · exact .inl c
        · exact .inr ⟨ip, mat, t'', c1, by omega, c3⟩
      have hmi := h6 h
      by_cases hfar : u16 = false ∧ t h + 65535 < fip
      · rw [if_pos hfar]; exact hgo
      · rw [if_neg hfar, readLE_eq (by omega) (by omega), readLE_eq (by omega) (by omega)]
        simp only
        by_cases heq : leVal src (t h) 4 = leVal src fip 4
        · rw [if_pos heq]
          refine .inr ⟨fip, t h, t', rfl, by omega, ⟨hmi.1, hmi.2, ?_, by omega, b2, leVal_inj.1 heq.symm⟩⟩
          cases hu : u16 with
          | true => have := h16 hu; omega
          | false => by_contra hc; exact hfar ⟨hu, by omega⟩
        · rw [if_neg heq]; exact hgo

theorem sameBefore_eq {ip mat : Int} (h1 : 1 ≤ mat) (h2 : mat < ip) (h3 : ip ≤ src.size) : sameBefore src ip mat = some (decide (src.at' (ip - 1) = src.at' (mat - 1))) := by
  unfold sameBefore
  rw [get_eq (by omega) (by omega), get_eq (by omega) (by omega)]
  rfl

theorem catchLoop_spec {anchor : Int} (f : Nat) : ∀ {ip mat : Int}, 0 ≤ anchor → anchor < ip → 1 ≤ mat → mat < ip → ip ≤ src.size → ip < f → src.at' (ip - 1) = src.at' (mat - 1) →
    ∃ k, catchLoop src anchor f ip mat = some (ip - k, mat - k) ∧ 0 ≤ k ∧ anchor ≤ ip - k ∧ 0 ≤ mat - k ∧ Same src (ip - k) (mat - k) k := by
  induction f with
  | zero => intro ip mat _ _ _ _ _ h; omega
  | succ f ih =>
    intro ip mat h0 h1 h2 h3 h4 h5 h6
    have hone : Same src (ip - 1) (mat - 1) 1 := by
      intro t t1 t2
      have : t = 0 := by omega
      subst this
      rw [Int.add_zero, Int.add_zero]
      exact h6
    unfold catchLoop
    by_cases hc : ip - 1 > anchor ∧ mat - 1 > 0
    · rw [if_pos hc, sameBefore_eq (by omega) (by omega) (by omega), Option.bind_some]
      by_cases hs : src.at' (ip - 1 - 1) = src.at' (mat - 1 - 1)
      · rw [if_pos (by simpa using hs)]
        obtain ⟨k, a1, a2, a3, a4, a5⟩ := ih (ip := ip - 1) (mat := mat - 1) h0 (by omega) (by omega) (by omega) (by omega) (by omega) hs
        refine ⟨k + 1, ?_, by omega, by omega, by omega, ?_⟩
        · rw [a1]; congr 2 <;> omega
        · rw [show ip - (k + 1) = ip - 1 - k by omega, show mat - (k + 1) = mat - 1 - k by omega]
          apply a5.add
          rw [Int.sub_add_cancel, Int.sub_add_cancel]
          exact hone
      · rw [if_neg (by simpa using hs)]
        exact ⟨1, rfl, by omega, by omega, by omega, hone⟩
    · rw [if_neg hc]
      exact ⟨1, rfl, by omega, by omega, by omega, hone⟩

theorem catchUp_spec {anchor ip mat : Int} (h0 : 0 ≤ anchor) (h1 : anchor < ip) (h2 : 0 ≤ mat) (h3 : mat < ip) (h4 : ip ≤ src.size) :
    ∃ k, catchUp src anchor ip mat = some (ip - k, mat - k) ∧ 0 ≤ k ∧ anchor ≤ ip - k ∧ 0 ≤ mat - k ∧ Same src (ip - k) (mat - k) k := by
  have hnone : ∃ k, some (ip, mat) = some (ip - k, mat - k) ∧ 0 ≤ k ∧ anchor ≤ ip - k ∧ 0 ≤ mat - k ∧ Same src (ip - k) (mat - k) k :=
    ⟨0, by rw [Int.sub_zero, Int.sub_zero], by omega, by omega, by omega, fun t t1 t2 => by omega⟩
  unfold catchUp
  by_cases hm : mat > 0
  · rw [if_pos hm, sameBefore_eq (by omega) h3 h4, Option.bind_some]
    by_cases hs : src.at' (ip - 1) = src.at' (mat - 1)
    · rw [if_pos (by simpa using hs)]
      exact catchLoop_spec _ h0 h1 (by omega) h3 h4 (by omega) hs
    · rw [if_neg (by simpa using hs)]
      exact hnone
  · rw [if_neg hm]
    exact hnone

/-! ## The main loop -/

/-- The sequences so far as bytes. -/
def encs (ss : List Seq) : Bytes := ss.flatMap encSeq

/-- What they mean. -/
def played (ss : List Seq) : Bytes := ss.foldl (fun out s => copyBack (out ++ s.lits) s.off s.mlen) []

theorem block_encs (ss : List Seq) (l : Bytes) : block ss l = encs ss ++ encLast l := by
  induction ss with
  | nil => rfl
  | cons s ss ih => rw [block, ih, encs, encs, List.flatMap_cons, List.append_assoc]

theorem play_foldl (out : Bytes) (ss : List Seq) (l : Bytes) : play out ss l = ss.foldl (fun out s => copyBack (out ++ s.lits) s.off s.mlen) out ++ l := by
  induction ss generalizing out with
  | nil => rfl
  | cons s ss ih => rw [play, ih, List.foldl_cons]

theorem encs_snoc (ss : List Seq) (s : Seq) : encs (ss ++ [s]) = encs ss ++ encSeq s := by
  rw [encs, List.flatMap_append, encs, List.flatMap_cons, List.flatMap_nil, List.append_nil]

theorem played_snoc (ss : List Seq) (s : Seq) : played (ss ++ [s]) = copyBack (played ss ++ s.lits) s.off s.mlen := by
  rw [played, List.foldl_append, played, List.foldl_cons, List.foldl_nil]

/-- The rules of the format while the end, `N`, is known but not the last literals. -/
def Okay (N : Nat) (k : Nat) : List Seq → Prop
  | [] => True
  | s :: ss => 1 ≤ s.off ∧ s.off ≤ 65535 ∧ s.off ≤ k + s.lits.length ∧ 4 ≤ s.mlen ∧ k + s.lits.length + 12 ≤ N ∧ k + s.lits.length + s.mlen + 5 ≤ N ∧
      Okay N (k + s.lits.length + s.mlen) ss

theorem Okay.snoc {N : Nat} {s : Seq} (ss : List Seq) : ∀ {k : Nat}, Okay N k ss → Okay N (k + outLen ss []) [s] → Okay N k (ss ++ [s]) := by
  induction ss with
  | nil => intro k _ h; exact h
  | cons x ss ih =>
    intro k h h'
    obtain ⟨a1, a2, a3, a4, a5, a6, a7⟩ := h
    refine ⟨a1, a2, a3, a4, a5, a6, ih a7 ?_⟩
    rw [outLen] at h'
    rw [show k + x.lits.length + x.mlen + outLen ss [] = k + (x.lits.length + x.mlen + outLen ss []) by omega]
    exact h'

theorem Okay.valid {N : Nat} {last : Bytes} (ss : List Seq) : ∀ {k : Nat}, Okay N k ss → k + outLen ss last = N → Valid k ss last := by
  induction ss with
  | nil => intro k _ _; trivial
  | cons x ss ih =>
    intro k h hN
    obtain ⟨a1, a2, a3, a4, a5, a6, a7⟩ := h
    rw [outLen] at hN
    have hv := ih a7 (by omega)
    refine ⟨a1, a2, a3, a4, ?_, by omega, hv⟩
    cases ss with
    | nil => simp only [outLen] at hN; omega
    | cons y ys => exact hv.2.2.2.2.1

theorem played_length (ss : List Seq) : (played ss).length = outLen ss [] := by
  have := play_length [] ss []
  rw [play_foldl, List.append_nil, List.length_nil, Nat.zero_add] at this
  exact this

theorem outLen_last (ss : List Seq) (l : Bytes) : outLen ss l = outLen ss [] + l.length := by
  induction ss with
  | nil => simp [outLen]
  | cons s ss ih => rw [outLen, outLen, ih]; omega

/-- Before `anchor` everything is encoded. -/
structure Done (src : Mem) (n : Int) (anchor op : Int) (ss : List Seq) : Prop where
  hop : op = (encs ss).length
  out : At src 0 (played ss)
  len : anchor = (played ss).length
  okay : Okay n.toNat 0 ss
  small : op ≤ anchor + anchor / 255

theorem encSeq_length (s : Seq) : (encSeq s).length = 1 + (lenTail s.lits.length).length + s.lits.length + 2 + (lenTail (s.mlen - 4)).length := by
  simp only [encSeq, List.length_cons, List.length_append]
  omega

/-- The state at `_next_match`: the literals of the next sequence are written. -/
structure Mid (src : Mem) (n : Int) (anchor token op ip mat : Int) (t : Tab) (m : Mem) (ss : List Seq) (k : Nat) (fl : Int) : Prop where
  base : Done src n anchor token ss
  mem : At m 0 (encs ss ++ UInt8.ofNat (16 * nibble k) :: (lenTail k ++ slice src anchor k))
  hop : op = (encs ss ++ UInt8.ofNat (16 * nibble k) :: (lenTail k ++ slice src anchor k)).length
  hip : ip = anchor + k
  lo : 0 ≤ mat
  lt : mat < ip
  far : ip - mat ≤ 65535
  hfl : ip ≤ fl
  lim : fl < n - 11
  ent : Ent t (fl + 1)
  same : Same src ip mat (fl + 4 - ip)

/-- After the match the sequence is complete. -/
theorem mid_next {anchor token op ip mat fl : Int} {t : Tab} {m : Mem} {ss : List Seq} {k : Nat} (h : Mid src n anchor token op ip mat t m ss k fl) (hn0 : 0 ≤ n) (hn : n ≤ src.size)
    (hs : n + n / 255 + 16 ≤ m.size) :
    ∃ ip' op' m' s, emitMatch src n m token op ip mat = some (ip', op', m') ∧ m'.size = m.size ∧ At m' 0 (encs (ss ++ [s])) ∧ Done src n ip' op' (ss ++ [s]) ∧
      anchor + 4 ≤ ip' ∧ ip' ≤ n - 5 ∧ Ent t (ip' - 2) := by
  have hsm := h.base.small
  have hhop := h.hop
  have hip := h.hip
  have hfl := h.hfl
  have hlim := h.lim
  have hlo := h.lo
  have hlt := h.lt
  have hfar := h.far
  have hlen := h.base.len
  have htok := h.base.hop
  have hlk := lenTail_length k
  simp only [List.length_append, List.length_cons, slice_length] at hhop
  have hk15 : (lenTail k).length ≤ k / 255 + 1 := by rw [hlk]; split <;> omega
  obtain ⟨mc, m', a1, a2, a3, a4⟩ := emitMatch_spec (src := src) (n := n) (ip := ip) (mat := mat) h.mem htok h.hop hlo hlt hfar (by omega) hn (by omega)
  obtain ⟨b1, b2, b3, b4⟩ := a2
  have hge : fl + 4 ≤ ip + (mc + 4) := by
    by_contra hc
    rcases b4 with b4 | b4
    · omega
    · apply b4
      have := h.same (4 + mc) (by omega) (by omega)
      rw [Int.add_assoc, Int.add_assoc]
      exact this
  have hml := lenTail_length mc
  have hlm : (lenTail mc).length ≤ mc := by rw [hml]; split <;> omega
  refine ⟨_, _, m', ⟨slice src anchor k, (ip - mat).toNat, mc + 4⟩, a1, a4, ?_, ⟨?_, ?_, ?_, ?_, ?_⟩, by omega, by omega, h.ent.mono (by omega)⟩
  · rw [encs_snoc, encSeq]
    simp only [slice_length, Nat.add_sub_cancel]
    simpa using a3
  · rw [encs_snoc, List.length_append, encSeq_length]
    simp only [slice_length, Nat.add_sub_cancel]
    omega
  · rw [played_snoc]
    apply At.copyBack
    · apply h.base.out.append
      rw [Int.zero_add, ← hlen]
      exact slice_at _ _
    · simp only; omega
    · rw [List.length_append, slice_length]; simp only; omega
    · intro j j1 j2
      rw [List.length_append, slice_length] at j1 j2
      simp only at j2 ⊢
      by_cases h4 : j < ip + 4
      · have := h.same (j - ip) (by omega) (by omega)
        rw [show j = ip + (j - ip) by omega, show ip + (j - ip) - ((ip - mat).toNat : Int) = mat + (j - ip) by omega]
        exact this
      · have := b3 (j - (ip + 4)) (by omega) (by omega)
        rw [show j = ip + 4 + (j - (ip + 4)) by omega, show ip + 4 + (j - (ip + 4)) - ((ip - mat).toNat : Int) = mat + 4 + (j - (ip + 4)) by omega]
        exact this
  · rw [played_snoc, copyBack_length, List.length_append, slice_length]
    simp only
    omega
  · apply Okay.snoc _ h.base.okay
    rw [← played_length]
    refine ⟨?_, ?_, ?_, ?_, ?_, ?_, trivial⟩ <;> simp only [slice_length] <;> omega
  · rw [hlk] at hhop
    split at hhop <;> omega

theorem At.eq_slice {m : Mem} {l : Bytes} (h : At m 0 l) : l = slice m 0 l.length := by
  apply List.ext_getElem
  · rw [slice_length]
  · intro i h1 h2
    simp only [slice, List.getElem_map, List.getElem_range]
    exact (h i h1).symm

/-- What the compressor must give. -/
def Encoded (src : Mem) (n : Int) (m : Mem) (r : Option (Int × Mem)) : Prop :=
  ∃ ss last m', r = some (((block ss last).length : Int), m') ∧ m'.size = m.size ∧ At m' 0 (block ss last) ∧ Valid 0 ss last ∧ play [] ss last = slice src 0 n.toNat ∧
    ((block ss last).length : Int) ≤ n + n / 255 + 2

theorem finish {anchor op : Int} {m : Mem} {ss : List Seq} (h : Done src n anchor op ss) (hm : At m 0 (encs ss)) (ha : anchor ≤ n) (hn : n ≤ src.size) (hs : n + n / 255 + 16 ≤ m.size) :
    Encoded src n m (lastLits src n m op anchor) := by
  have hop := h.hop
  have hlen := h.len
  have hsm := h.small
  obtain ⟨k, hk⟩ := Int.eq_ofNat_of_zero_le (show 0 ≤ n - anchor by omega)
  have hn' : n = anchor + k := by omega
  have hlk := lenTail_length k
  have hk15 : (lenTail k).length ≤ k / 255 + 1 := by rw [hlk]; split <;> omega
  obtain ⟨m', a1, a2, a3⟩ := lastLits_spec (src := src) (a := anchor) (k := k) hm hop (by omega) (by omega) (by omega)
  rw [← hn', ← block_encs] at a1
  rw [← block_encs] at a2
  have hpl : play [] ss (slice src anchor k) = played ss ++ slice src anchor k := play_foldl _ _ _
  refine ⟨ss, slice src anchor k, m', a1, a3, a2, ?_, ?_, ?_⟩
  · apply h.okay.valid
    rw [outLen_last, slice_length, ← played_length]
    omega
  · rw [hpl]
    have hat : At src 0 (played ss ++ slice src anchor k) := by
      apply h.out.append
      rw [Int.zero_add, ← hlen]
      exact slice_at _ _
    rw [hat.eq_slice, List.length_append, slice_length]
    congr 1
    omega
  · rw [block_encs, List.length_append]
    simp only [encLast, List.length_cons, List.length_append, slice_length]
    omega

/-- What holds where the main loop goes on. -/
def Going (src : Mem) (n : Int) (anchor op : Int) (t : Tab) (m : Mem) (ss : List Seq) : Pend → Prop
  | .head ip => At m 0 (encs ss) ∧ Done src n anchor op ss ∧ anchor < ip ∧ ip ≤ n - 11 ∧ Ent t ip
  | .next token ip mat => Mid src n anchor token op ip mat t m ss 0 ip

theorem toMatch_spec {anchor op : Int} {t : Tab} {m : Mem} {ss : List Seq} {p : Pend} (h : Going src n anchor op t m ss p) (hn : n ≤ src.size) (hn31 : n < 2 ^ 31)
    (h16 : u16 = true → n < 65547) (hs : n + n / 255 + 16 ≤ m.size) :
    (toMatch src n u16 anchor op t m p = some none ∧ At m 0 (encs ss) ∧ Done src n anchor op ss ∧ anchor ≤ n) ∨
    ∃ token ip mat op' t' m' k fl, toMatch src n u16 anchor op t m p = some (some ((token, ip, mat), op', t', m')) ∧ m'.size = m.size ∧
      Mid src n anchor token op' ip mat t' m' ss k fl := by
  cases p with
  | next token ip mat => exact .inr ⟨token, ip, mat, op, t, m, 0, ip, rfl, rfl, h⟩
  | head ip =>
    obtain ⟨h1, h2, h3, h4, h5⟩ := h
    have hlen := h2.len
    have hop := h2.hop
    have hsm := h2.small
    unfold toMatch
    obtain ⟨x, a1, a2⟩ := hashPos_eq (src := src) (u16 := u16) (p := ip) (by omega) (by omega)
    simp only
    rw [a1, Option.bind_some]
    rcases search_spec (u16 := u16) hn hn31 h16 (n.toNat + 1) (fip := ip) (step := 1) (nb := 64) (by omega) h4 (by omega) (by omega) a2 h5 (by omega) with
      b | ⟨ip1, mat1, t', b1, b2, b3⟩
    · rw [b]
      exact .inl ⟨rfl, h1, h2, by omega⟩
    · rw [b1]
      simp only
      have hlo := b3.lo
      have hlt := b3.lt
      have hlim := b3.lim
      have hfar := b3.far
      obtain ⟨d, c1, c2, c3, c4, c5⟩ := catchUp_spec (src := src) (anchor := anchor) (ip := ip1) (mat := mat1) (by omega) (by omega) hlo hlt (by omega)
      rw [c1, Option.bind_some]
      obtain ⟨k, hk⟩ := Int.eq_ofNat_of_zero_le (show 0 ≤ ip1 - d - anchor by omega)
      have hip : ip1 - d = anchor + k := by omega
      have hlk := lenTail_length k
      have hk15 : (lenTail k).length ≤ k / 255 + 1 := by rw [hlk]; split <;> omega
      obtain ⟨m', d1, d2, d3⟩ := emitLits_spec (src := src) (a := anchor) (k := k) h1 hop (by omega) (by omega) (by omega)
      simp only
      rw [hip, d1, Option.map_some]
      refine .inr ⟨op, anchor + k, mat1 - d, _, t', m', k, ip1, rfl, d3, ⟨h2, d2, ?_, rfl, c4, by omega, by omega, by omega, by omega, b3.ent, ?_⟩⟩
      · simp only [List.length_append, List.length_cons, slice_length]
        omega
      · rw [← hip, show ip1 + 4 - (ip1 - d) = d + 4 by omega]
        apply c5.add
        rw [Int.sub_add_cancel, Int.sub_add_cancel]
        exact b3.same

theorem afterMatch_spec {ip op : Int} {t : Tab} {m : Mem} {ss : List Seq} (h : Done src n ip op ss) (hm : At m 0 (encs ss)) (hn : n ≤ src.size) (hn31 : n < 2 ^ 31)
    (h16 : u16 = true → n < 65547) (hs : n + n / 255 + 16 ≤ m.size) (h4 : 4 ≤ ip) (he : Ent t (ip - 2)) :
    (afterMatch src n u16 ip op t m = some none) ∨
    ∃ p op' t' m', afterMatch src n u16 ip op t m = some (some (p, op', t', m')) ∧ m'.size = m.size ∧ Going src n ip op' t' m' ss p := by
  have hlen := h.len
  have hop := h.hop
  have hsm := h.small
  unfold afterMatch
  by_cases hl : ip ≥ n - 11
  · rw [if_pos hl]; exact .inl rfl
  · rw [if_neg hl]
    right
    obtain ⟨x, a1, a2⟩ := hashPos_eq (src := src) (u16 := u16) (p := ip - 2) (by omega) (by omega)
    obtain ⟨t1, b1, b2⟩ := tput_eq (b := ip) (i := ip - 2) a2 (he.mono (by omega)) (by omega) (by omega) (by omega) (fun hu => by have := h16 hu; omega)
    obtain ⟨y, c1, c2⟩ := hashPos_eq (src := src) (u16 := u16) (p := ip) (by omega) (by omega)
    obtain ⟨t2, d1, d2⟩ := tput_eq (b := ip + 1) (i := ip) c2 (b2.mono (by omega)) (by omega) (by omega) (by omega) (fun hu => by have := h16 hu; omega)
    rw [a1, Option.bind_some, b1, Option.bind_some, c1, Option.bind_some, tget, if_pos c2, Option.bind_some, d1, Option.bind_some]
    have hmi := b2 y
    have hhead : ∃ p op' t' m', some (some (Pend.head (ip + 1), op, t2, m)) = some (some (p, op', t', m')) ∧ m'.size = m.size ∧ Going src n ip op' t' m' ss p :=
      ⟨.head (ip + 1), op, t2, m, rfl, rfl, hm, h, by omega, by omega, d2⟩
    by_cases hfar : u16 = false ∧ t1 y + 65535 < ip
    · rw [if_pos hfar]; exact hhead
    · rw [if_neg hfar, readLE_eq (by omega) (by omega), Option.bind_some, readLE_eq (by omega) (by omega), Option.bind_some]
      by_cases heq : leVal src (t1 y) 4 = leVal src ip 4
      · rw [if_pos heq]
        obtain ⟨m', e1, e2, e3⟩ := put_at (b := 0) hm hop (by omega)
        rw [e1, Option.map_some]
        refine ⟨_, _, _, m', rfl, e3, ⟨h, ?_, ?_, ?_, hmi.1, hmi.2, ?_, by omega, by omega, d2, ?_⟩⟩
        · exact e2
        · show op + 1 = ((encs ss ++ [0]).length : Int)
          rw [List.length_append, List.length_singleton]; omega
        · omega
        · cases hu : u16 with
          | true => have := h16 hu; omega
          | false => by_contra hc; exact hfar ⟨hu, by omega⟩
        · rw [show ip + 4 - ip = 4 by omega]
          exact leVal_inj.1 heq.symm
      · rw [if_neg heq]; exact hhead

theorem mainLoop_spec (hn : n ≤ src.size) (hn31 : n < 2 ^ 31) (h16 : u16 = true → n < 65547) (f : Nat) : ∀ {p : Pend} {anchor op : Int} {t : Tab} {m : Mem} {ss : List Seq},
    Going src n anchor op t m ss p → 0 ≤ anchor → anchor ≤ n → n - anchor < f → n + n / 255 + 16 ≤ m.size → Encoded src n m (mainLoop src n u16 f p anchor op t m) := by
  induction f with
  | zero => intro p anchor op t m ss _ _ _ h; omega
  | succ f ih =>
    intro p anchor op t m ss h h0 h1 h2 h3
    unfold mainLoop
    rcases toMatch_spec (u16 := u16) h hn hn31 h16 h3 with ⟨a1, a2, a3, a4⟩ | ⟨token, ip, mat, op', t', m', k, fl, a1, a2, a3⟩
    · rw [a1]
      exact finish a3 a2 a4 hn h3
    · rw [a1]
      simp only [Option.bind_some]
      obtain ⟨ip', op'', m'', s, b1, b2, b3, b4, b5, b6, b7⟩ := mid_next a3 (by omega) hn (by rw [a2]; exact h3)
      rw [b1]
      simp only [Option.bind_some]
      have hsz : m''.size = m.size := b2.trans a2
      have h4 : 4 ≤ ip' := by omega
      rcases afterMatch_spec (u16 := u16) b4 b3 hn hn31 h16 (by rw [hsz]; exact h3) h4 b7 with c | ⟨p', op3, t3, m3, c1, c2, c3⟩
      · rw [c]
        simp only [Option.bind_some]
        obtain ⟨x1, x2, x3, x4, x5, x6⟩ := finish b4 b3 (by omega) hn (by rw [hsz]; exact h3)
        exact ⟨x1, x2, x3, x4, x5.trans hsz, x6⟩
      · rw [c1]
        simp only [Option.bind_some]
        have hsz3 : m3.size = m.size := c2.trans hsz
        obtain ⟨x1, x2, x3, x4, x5, x6⟩ := ih c3 (by omega) (by omega) (by omega) (by rw [hsz3]; exact h3)
        exact ⟨x1, x2, x3, x4, x5.trans hsz3, x6⟩

end

theorem slice_of (b : Bytes) : slice (Mem.of b) 0 b.length = b := (At.of b).eq_slice.symm

theorem done_nil {src : Mem} {n : Int} : Done src n 0 0 [] := ⟨rfl, fun i hi => absurd hi (by simp [played]), rfl, trivial, by omega⟩

/-- The same for the first `n` bytes of a longer input. -/
theorem compress_slice (src : Mem) (n : Nat) (m : Mem) (hb : n ≤ 0x7E000000) (hs : (n : Int) ≤ src.size) (hm : compressBound n ≤ m.size) :
    ∃ ss last m', compress src n m = some (((block ss last).length : Int), m') ∧ (∀ (i : Nat) (h : i < (block ss last).length), m'.at' i = (block ss last)[i]) ∧
      m'.size = m.size ∧ Valid 0 ss last ∧ play [] ss last = slice src 0 n ∧ ((block ss last).length : Int) ≤ compressBound n := by
  have hbd : compressBound n = (n : Int) + n / 255 + 16 := by unfold compressBound; rw [if_neg (by omega)]
  rw [hbd] at hm ⊢
  unfold compress
  rw [if_neg (by omega)]
  by_cases h0 : (n : Int) = 0
  · rw [if_pos h0]
    have hbn : n = 0 := by omega
    subst hbn
    obtain ⟨m', a1, a2, a3⟩ := put_at (m := m) (l := []) (op := 0) (b := 0) (fun i hi => absurd hi (by simp)) rfl (by omega)
    rw [a1]
    refine ⟨[], [], m', rfl, fun i hi => ?_, a3, trivial, rfl, by decide⟩
    have := a2 i hi
    rw [Int.zero_add] at this
    exact this
  · rw [if_neg h0]
    have hfin : Encoded src n m (generic src n (decide ((n : Int) < 65547)) m) := by
      have hnil : At m 0 (encs []) := fun i hi => absurd hi (by simp [encs])
      unfold generic
      by_cases h13 : (n : Int) < 13
      · rw [if_pos h13]
        exact finish done_nil hnil (by omega) (by omega) hm
      · rw [if_neg h13]
        have h16 : decide ((n : Int) < 65547) = true → (n : Int) < 65547 := fun h => by simpa using h
        obtain ⟨x, a1, a2⟩ := hashPos_eq (src := src) (u16 := decide ((n : Int) < 65547)) (p := 0) (by omega) (by omega)
        obtain ⟨t, b1, b2⟩ := tput_eq (b := 1) (i := 0) (t := fun _ => 0) a2 (fun _ => ⟨by simp, by simp⟩) (by omega) (by omega) (by omega) (fun _ => by omega)
        rw [a1, Option.bind_some, b1, Option.bind_some]
        exact mainLoop_spec (by omega) (by omega) h16 _ (p := .head 1) ⟨hnil, done_nil, by omega, by omega, b2⟩ (by omega) (by omega) (by omega) hm
    obtain ⟨ss, last, m', a1, a2, a3, a4, a5, a6⟩ := hfin
    refine ⟨ss, last, m', a1, fun i hi => ?_, a2, a4, ?_, by omega⟩
    · have := a3 i hi
      rw [Int.zero_add] at this
      exact this
    · rw [a5, show ((n : Int)).toNat = n by omega]

/-- **The compressor writes a block of the format that means its input.**  For every input of at most `LZ4_MAX_INPUT_SIZE` bytes and every target of at least
`LZ4_compressBound` bytes: no read leaves the input, no write leaves the target or the hash table, the loops end, and the target begins with a valid block whose meaning is the
input, not longer than the bound; the answer is its length. -/
theorem compress_block (b : Bytes) (m : Mem) (hb : b.length ≤ 0x7E000000) (hm : compressBound b.length ≤ m.size) :
    ∃ ss last m', compress (Mem.of b) b.length m = some (((block ss last).length : Int), m') ∧ (∀ (i : Nat) (h : i < (block ss last).length), m'.at' i = (block ss last)[i]) ∧
      m'.size = m.size ∧ Valid 0 ss last ∧ play [] ss last = b ∧ ((block ss last).length : Int) ≤ compressBound b.length := by
  obtain ⟨ss, last, m', a1, a2, a3, a4, a5, a6⟩ := compress_slice (Mem.of b) b.length m hb (Int.le_refl _) hm
  exact ⟨ss, last, m', a1, a2, a3, a4, a5.trans (slice_of b), a6⟩

/-- Forty bytes `A`: one literal, a match of 34 bytes one back, five literals. -/
example : (compress (Mem.of (List.replicate 40 65)) 40 ⟨compressBound 40, fun _ => 7⟩).map (fun x => (x.1, slice x.2 0 11)) =
      some (11, [0x1f, 65, 1, 0, 15, 0x50, 65, 65, 65, 65, 65]) ∧
    block [⟨[65], 1, 34⟩] [65, 65, 65, 65, 65] = [0x1f, 65, 1, 0, 15, 0x50, 65, 65, 65, 65, 65] ∧ play [] [⟨[65], 1, 34⟩] [65, 65, 65, 65, 65] = List.replicate 40 65 := by
  decide +kernel

end Verif.Lz4
