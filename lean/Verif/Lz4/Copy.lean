import Mathlib.Tactic.Common
import Verif.Lz4.Decompress

/-!
The copying functions of the decoder: they stay inside the buffer, never overlap, and repeat the bytes `off` positions back.
-/

namespace Verif.Lz4

/-- `m` was made from `m0` by writing at and behind `op`, up to `d` the bytes `off` positions back, again and again. -/
structure Per (m0 : Mem) (op off : Int) (m : Mem) (d : Int) : Prop where
  size : m.size = m0.size
  front : ∀ j < op, m.at' j = m0.at' j
  per : 0 < off → ∀ j, op ≤ j → j < d → m.at' j = m0.at' (op - off + (j - op) % off)

theorem Per.mono {m0 m : Mem} {op off d d' : Int} (h : Per m0 op off m d) (hd : d' ≤ d) : Per m0 op off m d' :=
  ⟨h.size, h.front, fun h0 j h1 h2 => h.per h0 j h1 (by omega)⟩

theorem Per.start (m : Mem) (op off : Int) : Per m op off m op := ⟨rfl, fun _ _ => rfl, fun _ _ _ _ => by omega⟩

theorem Per.look {m0 m : Mem} {op off d : Int} (h : Per m0 op off m d) (h0 : 0 < off) {j : Int} (h1 : op - off ≤ j) (h2 : j < d) :
    m.at' j = m0.at' (op - off + (j - op) % off) := by
  by_cases hj : op ≤ j
  · exact h.per h0 j hj h2
  · rw [h.front j (by omega)]
    congr 1
    have : (j - op) % off = j - op + off := by
      rw [← Int.add_emod_right]
      exact Int.emod_eq_of_lt (by omega) (by omega)
    omega

theorem store_eq {m : Mem} {d c : Int} {v : Int → UInt8} (h : 0 ≤ d) (hc : d + c ≤ m.size) :
    m.store d c v = some { m with at' := fun j => if d ≤ j ∧ j < d + c then v (j - d) else m.at' j } := by
  unfold Mem.store
  rw [if_pos ⟨h, hc⟩]

theorem Per.store {m0 m : Mem} {op off d c : Int} {v : Int → UInt8} (h : Per m0 op off m d) (hd : 0 ≤ op) (hod : op ≤ d) (hsz : d + c ≤ m0.size)
    (hv : 0 < off → ∀ i, 0 ≤ i → i < c → v i = m0.at' (op - off + (d + i - op) % off)) : ∃ m', m.store d c v = some m' ∧ Per m0 op off m' (d + c) := by
  refine ⟨_, store_eq (by omega) (by rw [h.size]; omega), ⟨h.size, ?_, ?_⟩⟩
  · intro j hj
    simp only
    rw [if_neg (by omega)]
    exact h.front j hj
  · intro h0 j h1 h2
    simp only
    by_cases hj : d ≤ j ∧ j < d + c
    · rw [if_pos hj, hv h0 (j - d) (by omega) (by omega)]
      congr 3; omega
    · rw [if_neg hj]
      exact h.per h0 j h1 (by omega)

theorem emod_back {x off k : Int} : (x - off * k) % off = x % off := by
  rw [Int.sub_eq_add_neg, ← Int.mul_neg, Int.add_mul_emod_self_left]

/-- Copying `c` bytes from `dist` back, a multiple of `off`. -/
theorem Per.copy {m0 m : Mem} {op off d c s : Int} (h : Per m0 op off m d) (hd : 0 ≤ op) (hod : op ≤ d) (hsz : d + c ≤ m0.size) (hs : 0 ≤ s)
    (hc0 : 0 ≤ c) (hc : s + c ≤ d) (hk : 0 < off → op - off ≤ s ∧ ∃ k, d - s = off * k) : ∃ m', m.copy d s c = some m' ∧ Per m0 op off m' (d + c) := by
  have hss : m.size = m0.size := h.size
  unfold Mem.copy Mem.copyFrom
  rw [if_pos (Or.inl hc), if_pos ⟨hs, by omega⟩]
  apply h.store hd hod hsz
  intro h0 i hi0 hi
  obtain ⟨h1, k, hk⟩ := hk h0
  rw [h.look h0 (by omega) (by omega)]
  congr 2
  have : s + i - op = (d + i - op) - off * k := by omega
  rw [this, emod_back]

theorem Per.wild8 {m0 m : Mem} {op off d s e : Int} {f : Nat} (h : Per m0 op off m d) (hd : 0 ≤ op) (hod : op ≤ d) (hf : rounds d e ≤ f)
    (hsz : d + 8 ≤ m0.size) (hsz' : e + 7 ≤ m0.size) (hs : 0 ≤ s) (hc : s + 8 ≤ d) (hk : 0 < off → op - off ≤ s ∧ ∃ k, d - s = off * k) :
    ∃ m', Lz4.wild8 f m d s e = some m' ∧ Per m0 op off m' e := by
  induction f generalizing m d s with
  | zero => unfold rounds at hf; omega
  | succ f ih =>
    obtain ⟨m1, h1, h2⟩ := h.copy hd hod hsz hs (by omega) hc hk
    unfold Lz4.wild8
    rw [h1]
    simp only [Option.bind_some]
    by_cases hlt : d + 8 < e
    · rw [if_pos hlt]
      refine ih h2 (by omega) ?_ (by omega) (by omega) (by omega) ?_
      · unfold rounds at hf ⊢; omega
      · intro h0
        obtain ⟨a, k, hk⟩ := hk h0
        exact ⟨by omega, k, by omega⟩
    · rw [if_neg hlt]
      exact ⟨m1, rfl, h2.mono (by omega)⟩

theorem Per.wild32 {m0 m : Mem} {op off d s e : Int} {f : Nat} (h : Per m0 op off m d) (hd : 0 ≤ op) (hod : op ≤ d) (hf : rounds d e ≤ f)
    (hsz : d + 32 ≤ m0.size) (hsz' : e + 31 ≤ m0.size) (hs : 0 ≤ s) (hc : s + 16 ≤ d) (hk : 0 < off → op - off ≤ s ∧ ∃ k, d - s = off * k) :
    ∃ m', Lz4.wild32 f m d s e = some m' ∧ Per m0 op off m' e := by
  induction f generalizing m d s with
  | zero => unfold rounds at hf; omega
  | succ f ih =>
    obtain ⟨m1, h1, h2⟩ := h.copy (c := 16) hd hod (by omega) hs (by omega) hc hk
    have hk2 : 0 < off → op - off ≤ s + 16 ∧ ∃ k, d + 16 - (s + 16) = off * k := by
      intro h0
      obtain ⟨a, k, hk⟩ := hk h0
      exact ⟨by omega, k, by omega⟩
    obtain ⟨m2, h3, h4⟩ := h2.copy (s := s + 16) (c := 16) hd (by omega) (by omega) (by omega) (by omega) (by omega) hk2
    unfold Lz4.wild32
    rw [h1]
    simp only [Option.bind_some, h3]
    by_cases hlt : d + 32 < e
    · rw [if_pos hlt]
      refine ih (d := d + 32) (s := s + 32) (h4.mono (by clear hk hk2; omega)) (by clear hk hk2; omega) ?_ (by clear hk hk2; omega) (by clear hk hk2; omega) (by clear hk hk2; omega) ?_
      · clear hk hk2; unfold rounds at hf ⊢; omega
      · intro h0
        obtain ⟨a, k, hk3⟩ := hk h0
        clear hk hk2 ih
        exact ⟨by omega, k, by omega⟩
    · rw [if_neg hlt]
      exact ⟨m2, rfl, h4.mono (by omega)⟩

theorem Per.bytewise {m0 m : Mem} {op off d s : Int} {k : Nat} (h : Per m0 op off m d) (hd : 0 ≤ op) (hod : op ≤ d) (hsz : d + k ≤ m0.size) (hs : 0 ≤ s)
    (hc : s ≤ d) (hk : 0 < off → op - off ≤ s ∧ s < d ∧ ∃ k, d - s = off * k) : ∃ m', Lz4.bytewise k m d s = some m' ∧ Per m0 op off m' (d + k) := by
  induction k generalizing m d s with
  | zero => exact ⟨m, rfl, h.mono (by omega)⟩
  | succ k ih =>
    have hss : m.size = m0.size := h.size
    unfold Lz4.bytewise
    have hg : m.get s = some (m.at' s) := by unfold Mem.get; rw [if_pos ⟨hs, by omega⟩]
    rw [hg, Option.bind_some]
    obtain ⟨m1, h1, h2⟩ := h.store (c := 1) (v := fun _ => m.at' s) hd hod (by omega) (by
      intro h0 i hi0 hi
      obtain ⟨a, b, k, hk⟩ := hk h0
      have : i = 0 := by omega
      subst this
      rw [h.look h0 a b, Int.add_zero]
      congr 2
      have : s - op = (d - op) - off * k := by omega
      rw [this, emod_back])
    have hp : m.put d (m.at' s) = some m1 := by
      unfold Mem.store at h1
      unfold Mem.put
      rw [if_pos ⟨by omega, by omega⟩] at h1 ⊢
      rw [← h1]
      congr 2
      funext j
      by_cases hj : j = d
      · rw [if_pos hj, if_pos (by omega)]
      · rw [if_neg hj, if_neg (by omega)]
    rw [hp, Option.bind_some]
    obtain ⟨m', a, b⟩ := ih (s := s + 1) h2 (by omega) (by push_cast at hsz; omega) (by omega) (by omega) (by
      intro h0
      obtain ⟨a, b, x, hx⟩ := hk h0
      exact ⟨by omega, by omega, x, by omega⟩)
    exact ⟨m', a, by
      have : d + ((k + 1 : Nat) : Int) = d + 1 + k := by push_cast; omega
      rw [this]; exact b⟩

/-- The first eight bytes: behind them the source is a multiple of `off` and at least eight positions back. -/
theorem first8_per {m : Mem} {op off s : Int} (hs : s = op - off) (hs0 : 0 ≤ s) (ho : 0 ≤ off) (hsz : op + 8 ≤ m.size) :
    ∃ m' s', first8 m op s off = some (m', s') ∧ Per m op off m' (op + 8) ∧ 0 ≤ s' ∧ s' + 8 ≤ op + 8 ∧ (0 < off → op - off ≤ s' ∧ ∃ k, op + 8 - s' = off * k) := by
  unfold first8
  by_cases h8 : off < 8
  · rw [if_pos h8]
    obtain ⟨m1, a1, b1, b2⟩ : ∃ m1, m.store op 4 (fun _ => 0) = some m1 ∧ m1.size = m.size ∧ ∀ j < op, m1.at' j = m.at' j := by
      refine ⟨_, store_eq (by omega) (by omega), rfl, fun j hj => ?_⟩
      simp only
      rw [if_neg (by omega)]
    have hp1 : Per m op off m1 op := ⟨b1, b2, fun _ _ _ _ => by omega⟩
    rw [a1, Option.bind_some]
    obtain ⟨m2, a2, h2⟩ := hp1.bytewise (s := s) (k := 4) (by omega) (by omega) (by push_cast; omega) hs0 (by omega) (fun h0 => ⟨by omega, by omega, 1, by omega⟩)
    rw [a2, Option.bind_some]
    have hk : 0 ≤ s + inc32 off ∧ s + inc32 off + 4 ≤ op + 4 ∧ (0 < off → op - off ≤ s + inc32 off ∧ ∃ k, op + 4 - (s + inc32 off) = off * k) ∧
        0 ≤ s + inc32 off - dec64 off ∧ s + inc32 off - dec64 off ≤ op ∧
        (0 < off → op - off ≤ s + inc32 off - dec64 off ∧ ∃ k, op + 8 - (s + inc32 off - dec64 off) = off * k) := by
      have : off = 0 ∨ off = 1 ∨ off = 2 ∨ off = 3 ∨ off = 4 ∨ off = 5 ∨ off = 6 ∨ off = 7 := by omega
      have hx : ∀ a b x y, inc32 off = a → dec64 off = b → off * x = 4 + off - a → off * y = 8 + off - a + b → 0 ≤ a → a ≤ off → 0 ≤ a - b → a - b ≤ off →
          0 ≤ s + inc32 off ∧ s + inc32 off + 4 ≤ op + 4 ∧ (0 < off → op - off ≤ s + inc32 off ∧ ∃ k, op + 4 - (s + inc32 off) = off * k) ∧
          0 ≤ s + inc32 off - dec64 off ∧ s + inc32 off - dec64 off ≤ op ∧
          (0 < off → op - off ≤ s + inc32 off - dec64 off ∧ ∃ k, op + 8 - (s + inc32 off - dec64 off) = off * k) := by
        intro a b x y h1 h2 h3 h4 h5 h6 h7 h8
        rw [h1, h2]
        exact ⟨by omega, by omega, fun _ => ⟨by omega, x, by omega⟩, by omega, by omega, fun _ => ⟨by omega, y, by omega⟩⟩
      rcases this with h | h | h | h | h | h | h | h
      · subst h
        simp only [inc32, dec64]
        simp
        omega
      · exact hx 1 0 4 8 (by subst h; decide) (by subst h; decide) (by omega) (by omega) (by omega) (by omega) (by omega) (by omega)
      · exact hx 2 0 2 4 (by subst h; decide) (by subst h; decide) (by omega) (by omega) (by omega) (by omega) (by omega) (by omega)
      · exact hx 1 (-1) 2 3 (by subst h; decide) (by subst h; decide) (by omega) (by omega) (by omega) (by omega) (by omega) (by omega)
      · exact hx 0 (-4) 2 2 (by subst h; decide) (by subst h; decide) (by omega) (by omega) (by omega) (by omega) (by omega) (by omega)
      · exact hx 4 1 1 2 (by subst h; decide) (by subst h; decide) (by omega) (by omega) (by omega) (by omega) (by omega) (by omega)
      · exact hx 4 2 1 2 (by subst h; decide) (by subst h; decide) (by omega) (by omega) (by omega) (by omega) (by omega) (by omega)
      · exact hx 4 3 1 2 (by subst h; decide) (by subst h; decide) (by omega) (by omega) (by omega) (by omega) (by omega) (by omega)
    obtain ⟨k1, k2, k3, k4, k5, k6⟩ := hk
    have h2' : Per m op off m2 (op + 4) := by simpa using h2
    obtain ⟨m3, a3, h3⟩ := h2'.copy (c := 4) (s := s + inc32 off) (by omega) (by omega) (by omega) k1 (by omega) k2 k3
    simp only
    rw [a3]
    exact ⟨m3, _, rfl, h3.mono (by omega), k4, by omega, k6⟩
  · rw [if_neg h8]
    obtain ⟨m1, a1, h1⟩ := (Per.start m op off).copy (c := 8) (s := s) (by omega) (by omega) hsz hs0 (by omega) (by omega) (fun _ => ⟨by omega, 1, by omega⟩)
    rw [a1]
    exact ⟨m1, s + 8, rfl, h1, by omega, by omega, fun _ => ⟨by omega, 1, by omega⟩⟩

theorem storeV_per {m0 m : Mem} {op off d e : Int} {v : Int → UInt8} {f : Nat} (h : Per m0 op off m d) (hd : 0 ≤ op) (hod : op ≤ d) (hf : rounds d e ≤ f)
    (hsz : d + 8 ≤ m0.size) (hsz' : e + 7 ≤ m0.size) (h8 : 0 < off → ∃ k, 8 = off * k) (h8' : 0 < off → ∃ k, d - op = off * k)
    (hv : 0 < off → ∀ i, 0 ≤ i → i < 8 → v i = m0.at' (op - off + i % off)) :
    ∃ m', storeV v f m d e = some m' ∧ Per m0 op off m' e := by
  induction f generalizing m d with
  | zero => unfold rounds at hf; omega
  | succ f ih =>
    obtain ⟨m1, h1, h2⟩ := h.store (c := 8) (v := v) hd hod hsz (by
      intro h0 i hi0 hi
      rw [hv h0 i hi0 hi]
      obtain ⟨k, hk⟩ := h8' h0
      congr 2
      have : i = (d + i - op) - off * k := by omega
      rw [← emod_back (x := d + i - op) (k := k), ← this])
    unfold storeV
    rw [h1]
    simp only [Option.bind_some]
    by_cases hlt : d + 8 < e
    · rw [if_pos hlt]
      refine ih h2 (by omega) ?_ (by omega) ?_
      · unfold rounds at hf ⊢; omega
      · intro h0
        obtain ⟨k, hk⟩ := h8 h0
        obtain ⟨k', hk'⟩ := h8' h0
        exact ⟨k' + k, by rw [Int.mul_add]; omega⟩
    · rw [if_neg hlt]
      exact ⟨m1, rfl, h2.mono (by omega)⟩

theorem copyOffset_per {m : Mem} {op off s e : Int} (hs : s = op - off) (hs0 : 0 ≤ s) (ho : 0 ≤ off) (hsz : op + 16 ≤ m.size) (hsz' : e + 7 ≤ m.size) :
    ∃ m', copyOffset m op s e off = some m' ∧ Per m op off m' e := by
  unfold copyOffset
  by_cases h1 : off = 1
  · rw [if_pos h1]
    have hg : m.get s = some (m.at' s) := by unfold Mem.get; rw [if_pos ⟨hs0, by omega⟩]
    rw [hg, Option.bind_some]
    refine storeV_per (Per.start m op off) (by omega) (by omega) (Nat.le_refl _) (by omega) hsz' (fun _ => ⟨8, by omega⟩) (fun _ => ⟨0, by omega⟩) ?_
    intro _ i _ _
    subst h1
    congr 1; omega
  · rw [if_neg h1]
    by_cases h2 : off = 2
    · rw [if_pos h2, if_pos ⟨hs0, by omega⟩]
      refine storeV_per (Per.start m op off) (by omega) (by omega) (Nat.le_refl _) (by omega) hsz' (fun _ => ⟨4, by omega⟩) (fun _ => ⟨0, by omega⟩) ?_
      intro _ i _ _
      subst h2
      rw [hs]
    · rw [if_neg h2]
      by_cases h4 : off = 4
      · rw [if_pos h4, if_pos ⟨hs0, by omega⟩]
        refine storeV_per (Per.start m op off) (by omega) (by omega) (Nat.le_refl _) (by omega) hsz' (fun _ => ⟨2, by omega⟩) (fun _ => ⟨0, by omega⟩) ?_
        intro _ i _ _
        subst h4
        rw [hs]
      · rw [if_neg h4]
        obtain ⟨m1, s1, a, hp, b1, b2, b3⟩ := first8_per hs hs0 ho (by omega : op + 8 ≤ m.size)
        rw [a, Option.bind_some]
        refine hp.wild8 (by omega) (by omega) ?_ (by omega) hsz' b1 (by omega) b3
        unfold rounds; omega

/-- In the end every byte written is the one `off` positions back. -/
theorem Per.back {m0 m : Mem} {op off d : Int} (h : Per m0 op off m d) (h0 : 0 < off) {j : Int} (h1 : op ≤ j) (h2 : j < d) : m.at' j = m.at' (j - off) := by
  rw [h.per h0 j h1 h2, h.look h0 (by omega) (by omega)]
  congr 2
  have := emod_back (x := j - op) (off := off) (k := 1)
  rw [Int.mul_one] at this
  rw [← this]; congr 1; omega

end Verif.Lz4
