import Mathlib.Tactic.Common
import Verif.Mix.Cas
import Verif.Mix.LiveSpec

/-!
C123: `gets` and `cas` beside sweeps and flushes: no change is lost.
-/

namespace Verif.Mix

open Verif.Num Verif.Resp Verif.Cmd Verif.Cache Verif.Shard Verif.Map Function

/-- The store before it. -/
def Did.before : Did → Store
  | .part ev => ev.before
  | .chore _ _ m => m

/-- `gets` has answered an item, and later a `cas` with its token has stored: the key has held just this item all the time in between, also before and after each sweep and flush. -/
def NoLostUpdateLive (ds : List Did) : Prop :=
  ∀ (l1 l2 l3 : List Did) (g c : Event) (fs : List Found) (f : Found) (tok : Nat) (v : Bytes) (fl : Nat), ds = l1 ++ .part g :: (l2 ++ .part c :: l3) →
    g.ans = .mc (.values true fs) → f ∈ fs → f.cas = some tok → Stores tok f.key v fl c.ask c.ans →
    ∃ x : McWire.Held, x.value = f.data ∧ x.flags = f.flags ∧ x.cas = tok ∧ g.after.has f.key = some x ∧ (∀ d ∈ l2, d.before.has f.key = some x) ∧
      c.before.has f.key = some x ∧ ∃ y : McWire.Held, c.after.has f.key = some y ∧ y.value = v ∧ y.flags = fl ∧ tok < y.cas

/-- Of the `cas` commands with the same token for the same key only one stores. -/
def OneWinnerLive (ds : List Did) : Prop :=
  ∀ (l1 l2 l3 : List Did) (c d : Event) (tok : Nat) (k v v' : Bytes) (fl fl' : Nat), ds = l1 ++ .part c :: (l2 ++ .part d :: l3) →
    Stores tok k v fl c.ask c.ans → ¬ Stores tok k v' fl' d.ask d.ans

theorem chore_moves (grp : Bytes → Nat) (x : Many.Chore) (m : Store) (k : Bytes) : Moves k m (choreDone grp x m) := by
  refine ⟨Nat.le_refl _, ?_⟩
  unfold choreDone
  simp only []
  split
  · split
    · exact Or.inr (Or.inl rfl)
    · cases hs : m.see x.now k with
      | none => exact Or.inr (Or.inl rfl)
      | some z => exact Or.inl (see_has hs).symm
  · exact Or.inl rfl

/-- One after the other. -/
def LinkedLive (ver : Bytes) (grp : Bytes → Nat) : Store → List Did → Store → Prop
  | m, [], m' => m = m'
  | m, .part ev :: ds, m' => ev.before = m ∧ Fair ver ev ∧ LinkedLive ver grp ev.after ds m'
  | m, .chore _ x m1 :: ds, m' => m1 = m ∧ LinkedLive ver grp (choreDone grp x m1) ds m'

variable {ver : Bytes} {grp : Bytes → Nat} {clock : Nat → Nat → Env} {asks : Nat → List Ask} {m m' : Store} {ds : List Did} {rs ps : Nat → List Ans}

theorem linkedLive_append {l l' : List Did} : LinkedLive ver grp m (l ++ l') m' ↔ ∃ m1, LinkedLive ver grp m l m1 ∧ LinkedLive ver grp m1 l' m' := by
  induction l generalizing m with
  | nil => simp [LinkedLive]
  | cons d l ih =>
    cases d with
    | part ev =>
      simp only [List.cons_append, LinkedLive, ih]
      constructor
      · rintro ⟨h1, h2, m1, h3, h4⟩
        exact ⟨m1, ⟨h1, h2, h3⟩, h4⟩
      · rintro ⟨m1, ⟨h1, h2, h3⟩, h4⟩
        exact ⟨h1, h2, m1, h3, h4⟩
    | chore t x m0 =>
      simp only [List.cons_append, LinkedLive, ih]
      constructor
      · rintro ⟨h1, m1, h3, h4⟩
        exact ⟨m1, ⟨h1, h3⟩, h4⟩
      · rintro ⟨m1, ⟨h1, h3⟩, h4⟩
        exact ⟨h1, m1, h3, h4⟩

theorem LiveStory.linked (h : LiveStory ver clock asks grp m ds rs ps m') : LinkedLive ver grp m ds m' := by
  induction h with
  | none => rfl
  | part _ hn ih =>
    rw [linkedLive_append]
    refine ⟨_, ih, rfl, ?_, rfl⟩
    cases hn with
    | part _ _ _ h4 h5 => exact ⟨_, _, _, _, h4, h5⟩
    | last _ _ _ h4 h5 => exact ⟨_, _, _, _, h4, h5⟩
  | chore _ ih =>
    rw [linkedLive_append]
    exact ⟨_, ih, rfl, rfl⟩

/-- The first thing, and the rest. -/
theorem LinkedLive.first {d : Did} (h : LinkedLive ver grp m (d :: ds) m') : d.before = m ∧ ∃ m1, (∀ k, Moves k m m1) ∧ LinkedLive ver grp m1 ds m' := by
  cases d with
  | part ev =>
    obtain ⟨rfl, h2, h3⟩ := h
    exact ⟨rfl, _, h2.moves, h3⟩
  | chore t x m0 =>
    obtain ⟨rfl, h3⟩ := h
    exact ⟨rfl, _, chore_moves grp x m0, h3⟩

theorem LinkedLive.bounded (h : LinkedLive ver grp m ds m') (hb : Bounded m) : Bounded m' := by
  induction ds generalizing m with
  | nil => cases h; exact hb
  | cons d ds ih =>
    obtain ⟨_, m1, h2, h3⟩ := h.first
    exact ih h3 (Moves.bounded hb h2)

theorem LinkedLive.gone (h : LinkedLive ver grp m ds m') {k : Bytes} {tok : Nat} (hg : Gone k tok m) : Gone k tok m' := by
  induction ds generalizing m with
  | nil => cases h; exact hg
  | cons d ds ih =>
    obtain ⟨_, m1, h2, h3⟩ := h.first
    exact ih h3 ((h2 k).gone hg)

theorem LinkedLive.keep (h : LinkedLive ver grp m ds m') (hb : Bounded m) {k : Bytes} {x : McWire.Held} (hx : m.has k = some x) :
    (m'.has k = some x ∧ ∀ d ∈ ds, d.before.has k = some x) ∨ Gone k x.cas m' := by
  induction ds generalizing m with
  | nil => cases h; exact Or.inl ⟨hx, by simp⟩
  | cons d ds ih =>
    obtain ⟨h1, m1, h2, h3⟩ := h.first
    rcases (h2 k).keep hb hx with h4 | h4
    · rcases ih h3 (Moves.bounded hb h2) h4 with ⟨h5, h6⟩ | h5
      · left
        refine ⟨h5, fun e he => ?_⟩
        rcases List.mem_cons.1 he with rfl | he
        · rw [h1]; exact hx
        · exact h6 e he
      · exact Or.inr h5
    · exact Or.inr (h3.gone h4)

theorem no_lost_update_live (h : LiveStory ver clock asks grp m ds rs ps m') (hb : Bounded m) : NoLostUpdateLive ds := by
  rintro l1 l2 l3 g c fs f tok v fl rfl h1 h2 h3 h4
  obtain ⟨m1, k1, rfl, k2, k3⟩ := linkedLive_append.1 h.linked
  obtain ⟨m2, k4, rfl, k5, _⟩ := linkedLive_append.1 k3
  obtain ⟨x, x1, x2, x3, x4⟩ := k2.gets h1 h2 h3
  obtain ⟨⟨z, z1, z2⟩, y, y1, y2, y3, y4, _⟩ := k5.cas h4
  have hb1 := Moves.bounded (k1.bounded hb) k2.moves
  rcases k4.keep hb1 x4 with ⟨w1, w2⟩ | w
  · exact ⟨x, x1, x2, x3, x4, w2, w1, y, y1, y2, y3, by have := (k4.bounded hb1) _ _ z1; omega⟩
  · have := w.2 z z1
    omega

theorem one_winner_live (h : LiveStory ver clock asks grp m ds rs ps m') (hb : Bounded m) : OneWinnerLive ds := by
  rintro l1 l2 l3 c d tok k v v' fl fl' rfl h1 h3
  obtain ⟨m1, k1, rfl, k2, k3⟩ := linkedLive_append.1 h.linked
  obtain ⟨m2, k4, rfl, k5, _⟩ := linkedLive_append.1 k3
  obtain ⟨⟨z, z1, z2⟩, y, y1, _, _, y4, y5⟩ := k2.cas h1
  obtain ⟨⟨z', z3, z4⟩, _⟩ := k5.cas h3
  have hle := (k1.bounded hb) _ _ z1
  have hg : Gone k tok c.after := ⟨by omega, fun x hx => by rw [y1] at hx; cases hx; omega⟩
  have := (k4.gone hg).2 z' z3
  omega

end Verif.Mix
