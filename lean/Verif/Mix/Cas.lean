import Mathlib.Tactic.Common
import Verif.Mix.Props

/-!
C107: `gets` and `cas` (of memcache, or PUT with `cas`) beside any other clients, of any protocol: no change is lost.
-/

namespace Verif.Mix

open Verif.Num Verif.Resp Verif.Cmd Verif.Cache Verif.Shard Verif.Map Function

/-! ### The claims -/

/-- A `cas` that has stored: of memcache, or a PUT of HTTP. -/
inductive Stores (tok : Nat) (k v : Bytes) (fl : Nat) : Ask → Ans → Prop
  | mc {exp : Int} : Stores tok k v fl (.mc (.store (.cas tok) k v fl exp)) (.mc (.line McWire.stored))
  | http {ttl : Option Int} {body : Bytes} : Stores tok k v fl (.http (.put (.cas tok) k v fl ttl)) (.http 200 body)

/-- `gets` has answered an item, and later a `cas` with its token has stored: the key has held just this item all the time in between. -/
def NoLostUpdate (evs : List Event) : Prop :=
  ∀ (l1 l2 l3 : List Event) (g c : Event) (fs : List Found) (f : Found) (tok : Nat) (v : Bytes) (fl : Nat), evs = l1 ++ g :: (l2 ++ c :: l3) →
    g.ans = .mc (.values true fs) → f ∈ fs → f.cas = some tok → Stores tok f.key v fl c.ask c.ans →
    ∃ x : McWire.Held, x.value = f.data ∧ x.flags = f.flags ∧ x.cas = tok ∧ (∀ ev ∈ l2, ev.before.has f.key = some x ∧ ev.after.has f.key = some x) ∧
      c.before.has f.key = some x ∧ ∃ y : McWire.Held, c.after.has f.key = some y ∧ y.value = v ∧ y.flags = fl ∧ tok < y.cas

/-- Of the `cas` commands with the same token for the same key only one stores. -/
def OneWinner (evs : List Event) : Prop :=
  ∀ (l1 l2 l3 : List Event) (c d : Event) (tok : Nat) (k v v' : Bytes) (fl fl' : Nat), evs = l1 ++ c :: (l2 ++ d :: l3) →
    Stores tok k v fl c.ask c.ans → ¬ Stores tok k v' fl' d.ask d.ans

/-! ### Tokens only grow -/

/-- No key has a token beyond those it had. -/
def Bounded (m : Store) : Prop := ∀ k x, m.has k = some x → x.cas ≤ m.used k

/-- What may happen to a key. -/
def Moves (k : Bytes) (m m' : Store) : Prop :=
  m.used k ≤ m'.used k ∧ (m'.has k = m.has k ∨ m'.has k = none ∨ ∃ x, m'.has k = some x ∧ m.used k < x.cas ∧ x.cas ≤ m'.used k)

theorem moves_refl (k : Bytes) (m : Store) : Moves k m m := ⟨Nat.le_refl _, Or.inl rfl⟩

theorem moves_put {m : Store} {k j : Bytes} {x : McWire.Held} (h : m.used k < x.cas) : Moves j m (m.put k x) := by
  unfold Moves McWire.Store.put
  by_cases hj : j = k
  · subst hj
    simp only [update_self]
    exact ⟨h.le, Or.inr (Or.inr ⟨x, rfl, h, Nat.le_refl _⟩)⟩
  · simp only [update_of_ne hj]
    exact ⟨Nat.le_refl _, Or.inl trivial⟩

theorem moves_drop (m : Store) (k j : Bytes) : Moves j m (m.drop k) := by
  unfold Moves McWire.Store.drop
  refine ⟨Nat.le_refl _, ?_⟩
  by_cases hj : j = k
  · subst hj
    simp only [update_self]
    exact Or.inr (Or.inl trivial)
  · simp only [update_of_ne hj]
    exact Or.inl trivial

theorem serves_moves {ver : Bytes} {now unix : Int} {m m' : Store} {a : Ask} {r : Ans} (h : Serves ver now unix m a r m') (k : Bytes) : Moves k m m' := by
  cases h with
  | resp _ hk =>
    rcases hk k with ⟨h1, h2⟩ | ⟨h1, h2⟩ | ⟨x, h1, h2, h3, _⟩
    · exact ⟨h2.ge, Or.inl h1⟩
    · exact ⟨h2.ge, Or.inr (Or.inl h1)⟩
    · exact ⟨by omega, Or.inr (Or.inr ⟨x, h1, h2, h3.ge⟩)⟩
  | mc hs =>
    cases hs with
    | set h => exact moves_put h
    | add _ h => exact moves_put h
    | replace _ h => exact moves_put h
    | cas _ _ h => exact moves_put h
    | join _ _ h => exact moves_put h
    | up _ _ h => exact moves_put h
    | down _ _ h => exact moves_put h
    | touch _ h => exact moves_put h
    | delete _ => exact moves_drop ..
    | _ => exact moves_refl ..
  | odd hs =>
    cases hs with
    | below _ _ _ _ h => exact moves_put h
    | odd _ _ _ _ h => exact moves_put h
    | _ => exact moves_refl ..
  | http hs =>
    cases hs with
    | put _ h => exact moves_put h
    | delete _ => exact moves_drop ..
    | _ => exact moves_refl ..
  | pg hs =>
    cases hs with
    | set h => exact moves_put h
    | count _ _ _ h => exact moves_put h
    | joinNew _ h => exact moves_put h
    | join _ _ h => exact moves_put h
    | del _ => exact moves_drop ..
    | _ => exact moves_refl ..

theorem Drops.moves {now : Int} {ks : List Bytes} {m m' : Store} (h : Drops now ks m m') (k : Bytes) : Moves k m m' := by
  refine ⟨by rw [h.1], ?_⟩
  rcases h.2 k with h | ⟨_, _, h⟩
  · exact Or.inl h
  · exact Or.inr (Or.inl h)

theorem Moves.trans {k : Bytes} {m1 m2 m3 : Store} (h : Moves k m1 m2) (h' : Moves k m2 m3) : Moves k m1 m3 := by
  obtain ⟨a1, a2⟩ := h
  obtain ⟨b1, b2⟩ := h'
  refine ⟨a1.trans b1, ?_⟩
  rcases b2 with b2 | b2 | ⟨x, b2, b3, b4⟩
  · rw [b2]
    rcases a2 with a2 | a2 | ⟨x, a2, a3, a4⟩
    · exact Or.inl a2
    · exact Or.inr (Or.inl a2)
    · exact Or.inr (Or.inr ⟨x, a2, a3, a4.trans b1⟩)
  · exact Or.inr (Or.inl b2)
  · exact Or.inr (Or.inr ⟨x, b2, by omega, b4⟩)

theorem Moves.bounded {m m' : Store} (h : Bounded m) (hm : ∀ k, Moves k m m') : Bounded m' := by
  intro k x hx
  obtain ⟨h1, h2 | h2 | ⟨y, h2, _, h3⟩⟩ := hm k
  · exact (h k x (h2 ▸ hx)).trans h1
  · rw [h2] at hx; cases hx
  · rw [h2] at hx; cases hx; exact h3

/-- The key no longer has this token, and will not have it again. -/
def Gone (k : Bytes) (tok : Nat) (m : Store) : Prop := tok ≤ m.used k ∧ ∀ x, m.has k = some x → tok < x.cas

theorem Moves.gone {k : Bytes} {tok : Nat} {m m' : Store} (hm : Moves k m m') (h : Gone k tok m) : Gone k tok m' := by
  obtain ⟨h1, h2⟩ := hm
  refine ⟨h.1.trans h1, fun x hx => ?_⟩
  rcases h2 with h2 | h2 | ⟨y, h2, h3, _⟩
  · exact h.2 x (h2 ▸ hx)
  · rw [h2] at hx; cases hx
  · rw [h2] at hx; cases hx; exact h.1.trans_lt h3

theorem Moves.keep {k : Bytes} {m m' : Store} {x : McWire.Held} (hm : Moves k m m') (hb : Bounded m) (h : m.has k = some x) : m'.has k = some x ∨ Gone k x.cas m' := by
  have hle := hb k x h
  obtain ⟨h1, h2 | h2 | ⟨y, h2, h3, _⟩⟩ := hm
  · exact Or.inl (h2.trans h)
  · exact Or.inr ⟨hle.trans h1, fun z hz => by rw [h2] at hz; cases hz⟩
  · exact Or.inr ⟨hle.trans h1, fun z hz => by rw [h2] at hz; cases hz; omega⟩

/-! ### Events in their order -/

/-- What an event does. -/
def Fair (ver : Bytes) (ev : Event) : Prop := ∃ now unix ks m, Drops now ks ev.before m ∧ Serves ver now unix m ev.ask ev.ans ev.after

/-- One after the other. -/
def Linked (ver : Bytes) : Store → List Event → Store → Prop
  | m, [], m' => m = m'
  | m, ev :: evs, m' => ev.before = m ∧ Fair ver ev ∧ Linked ver ev.after evs m'

theorem linked_append {ver : Bytes} {m m' : Store} {l l' : List Event} : Linked ver m (l ++ l') m' ↔ ∃ m1, Linked ver m l m1 ∧ Linked ver m1 l' m' := by
  induction l generalizing m with
  | nil => simp [Linked]
  | cons ev l ih =>
    simp only [List.cons_append, Linked, ih]
    constructor
    · rintro ⟨h1, h2, m1, h3, h4⟩
      exact ⟨m1, ⟨h1, h2, h3⟩, h4⟩
    · rintro ⟨m1, ⟨h1, h2, h3⟩, h4⟩
      exact ⟨h1, h2, m1, h3, h4⟩

theorem Story.linked {ver : Bytes} {clock : Nat → Nat → Env} {asks : Nat → List Ask} {m m' : Store} {evs : List Event} {rs ps : Nat → List Ans}
    (h : Story ver clock asks m evs rs ps m') : Linked ver m evs m' := by
  induction h with
  | none => rfl
  | one _ hn ih =>
    rw [linked_append]
    refine ⟨_, ih, rfl, ?_, rfl⟩
    cases hn with
    | part _ _ _ h4 h5 => exact ⟨_, _, _, _, h4, h5⟩
    | last _ _ _ h4 h5 => exact ⟨_, _, _, _, h4, h5⟩

theorem Fair.moves {ver : Bytes} {ev : Event} (h : Fair ver ev) (k : Bytes) : Moves k ev.before ev.after := by
  obtain ⟨_, _, _, _, h1, h2⟩ := h
  exact (h1.moves k).trans (serves_moves h2 k)

theorem Linked.bounded {ver : Bytes} {m m' : Store} {evs : List Event} (h : Linked ver m evs m') (hb : Bounded m) : Bounded m' := by
  induction evs generalizing m with
  | nil => cases h; exact hb
  | cons ev evs ih =>
    obtain ⟨rfl, h2, h3⟩ := h
    exact ih h3 (Moves.bounded hb h2.moves)

theorem Linked.gone {ver : Bytes} {m m' : Store} {evs : List Event} (h : Linked ver m evs m') {k : Bytes} {tok : Nat} (hg : Gone k tok m) : Gone k tok m' := by
  induction evs generalizing m with
  | nil => cases h; exact hg
  | cons ev evs ih =>
    obtain ⟨rfl, h2, h3⟩ := h
    exact ih h3 ((h2.moves k).gone hg)

theorem Linked.keep {ver : Bytes} {m m' : Store} {evs : List Event} (h : Linked ver m evs m') (hb : Bounded m) {k : Bytes} {x : McWire.Held} (hx : m.has k = some x) :
    (m'.has k = some x ∧ ∀ ev ∈ evs, ev.before.has k = some x ∧ ev.after.has k = some x) ∨ Gone k x.cas m' := by
  induction evs generalizing m with
  | nil => cases h; exact Or.inl ⟨hx, by simp⟩
  | cons ev evs ih =>
    obtain ⟨rfl, h2, h3⟩ := h
    rcases (h2.moves k).keep hb hx with h4 | h4
    · rcases ih h3 (Moves.bounded hb h2.moves) h4 with ⟨h5, h6⟩ | h5
      · left
        refine ⟨h5, fun e he => ?_⟩
        rcases List.mem_cons.1 he with rfl | he
        · exact ⟨hx, h4⟩
        · exact h6 e he
      · exact Or.inr h5
    · exact Or.inr (h3.gone h4)

theorem see_has {m : Store} {now : Int} {k : Bytes} {x : McWire.Held} (h : m.see now k = some x) : m.has k = some x := by
  unfold McWire.Store.see at h
  rw [Option.filter_eq_some_iff] at h
  exact h.1

theorem Drops.has {now : Int} {ks : List Bytes} {m m' : Store} (h : Drops now ks m m') {k : Bytes} {x : McWire.Held} (hx : m'.has k = some x) : m.has k = some x := by
  rcases h.2 k with h | ⟨_, _, h⟩
  · rw [← h]; exact hx
  · rw [h] at hx; cases hx

/-- What a `gets` has answered is there. -/
theorem Fair.gets {ver : Bytes} {ev : Event} (h : Fair ver ev) {fs : List Found} (ha : ev.ans = .mc (.values true fs)) {f : Found} (hf : f ∈ fs) {tok : Nat} (ht : f.cas = some tok) :
    ∃ x : McWire.Held, x.value = f.data ∧ x.flags = f.flags ∧ x.cas = tok ∧ ev.after.has f.key = some x := by
  obtain ⟨now, unix, ks, m, h1, h2⟩ := h
  rw [ha] at h2
  generalize ev.ask = a at h2
  generalize ev.after = m' at h2 ⊢
  cases h2 with
  | mc h2 =>
    cases h2 with
    | get =>
      obtain ⟨k, _, h4⟩ := List.mem_filterMap.1 hf
      obtain ⟨x, h5, rfl⟩ := Option.map_eq_some_iff.1 h4
      exact ⟨x, rfl, rfl, by simpa [McWire.shown] using ht, see_has h5⟩

/-- What a `cas` that has stored did. -/
theorem Fair.cas {ver : Bytes} {ev : Event} (h : Fair ver ev) {tok : Nat} {k v : Bytes} {fl : Nat} (hq : Stores tok k v fl ev.ask ev.ans) :
    (∃ x, ev.before.has k = some x ∧ x.cas = tok) ∧
      ∃ y : McWire.Held, ev.after.has k = some y ∧ y.value = v ∧ y.flags = fl ∧ ev.before.used k < y.cas ∧ y.cas ≤ ev.after.used k := by
  obtain ⟨now, unix, ks, m, h1, h2⟩ := h
  generalize ev.after = m' at h2 ⊢
  generalize ev.ask = a at h2 hq
  generalize ev.ans = r at h2 hq
  cases hq with
  | mc =>
    cases h2 with
    | mc h2 =>
      generalize hl : McWire.stored = l at h2
      cases h2 with
      | cas h3 h4 h5 =>
        refine ⟨⟨_, h1.has (see_has h3), h4⟩, _, update_self .., rfl, rfl, ?_, ?_⟩
        · rw [← h1.1]; exact h5
        · exact (show update m.used k _ k = _ from update_self ..).ge
      | casOther => cases hl
      | casMissing => cases hl
  | http =>
    cases h2 with
    | http h2 =>
      cases h2 with
      | put h3 h5 =>
        obtain ⟨x, h3, h4⟩ := h3
        refine ⟨⟨x, h1.has (see_has h3), h4⟩, _, update_self .., rfl, rfl, ?_, ?_⟩
        · rw [← h1.1]; exact h5
        · exact (show update m.used k _ k = _ from update_self ..).ge

/-- **C107.**  Nothing is lost between a `gets` and a `cas` that stores. -/
theorem no_lost_update {ver : Bytes} {clock : Nat → Nat → Env} {asks : Nat → List Ask} {m m' : Store} {evs : List Event} {rs ps : Nat → List Ans}
    (h : Story ver clock asks m evs rs ps m') (hb : Bounded m) : NoLostUpdate evs := by
  rintro l1 l2 l3 g c fs f tok v fl rfl h1 h2 h3 h4
  obtain ⟨m1, k1, rfl, k2, k3⟩ := linked_append.1 h.linked
  obtain ⟨m2, k4, rfl, k5, _⟩ := linked_append.1 k3
  obtain ⟨x, x1, x2, x3, x4⟩ := k2.gets h1 h2 h3
  obtain ⟨⟨z, z1, z2⟩, y, y1, y2, y3, y4, _⟩ := k5.cas h4
  have hb1 := Moves.bounded (k1.bounded hb) k2.moves
  rcases k4.keep hb1 x4 with ⟨w1, w2⟩ | w
  · exact ⟨x, x1, x2, x3, w2, w1, y, y1, y2, y3, by have := (k4.bounded hb1) _ _ z1; omega⟩
  · have := w.2 z z1
    omega

/-- **C107.**  Of those who race with the same token one wins. -/
theorem one_winner {ver : Bytes} {clock : Nat → Nat → Env} {asks : Nat → List Ask} {m m' : Store} {evs : List Event} {rs ps : Nat → List Ans}
    (h : Story ver clock asks m evs rs ps m') (hb : Bounded m) : OneWinner evs := by
  rintro l1 l2 l3 c d tok k v v' fl fl' rfl h1 h3
  obtain ⟨m1, k1, rfl, k2, k3⟩ := linked_append.1 h.linked
  obtain ⟨m2, k4, rfl, k5, _⟩ := linked_append.1 k3
  obtain ⟨⟨z, z1, z2⟩, y, y1, _, _, y4, y5⟩ := k2.cas h1
  obtain ⟨⟨z', z3, z4⟩, _⟩ := k5.cas h3
  have hle := (k1.bounded hb) _ _ z1
  have hg : Gone k tok c.after := ⟨by omega, fun x hx => by rw [y1] at hx; cases hx; omega⟩
  have := (k4.gone hg).2 z' z3
  omega

variable {c : Ctx} {n : Nat} {kind : Nat → Kind} {pw : Bytes} {y : Sys} {clock : Nat → Nat → Env} {addr : Nat → Nat}
variable {asks : Nat → List Ask} {chunks : Nat → List Bytes} {ws : Nat → List Bytes}

/-- **C107**, for the threads: of every execution there is such a story (C106), and in it no update is lost and one of those who race wins. -/
theorem cas_safe (hv : c.Valid) (hu : c.usecas = true) (hn : 0 < n) {shs : Shards} (hA : AllInv c n shs) {now0 : Int} {s : Spec.State} (hR : R c n now0 shs s)
    (hs : ∀ k it, s.dict k = some it → it.value.length ≤ Wire.longest ∧ it.expires < 2 ^ 63 ∧ it.cas ≤ s.tok (shardIdx c n k)) (hver : ∀ b ∈ y.version, 32 ≤ b)
    (hclock : ∀ t i, Fine (kind t) (clock t i)) (hle : ∀ t i, now0 ≤ (clock t i).now) (hcl : Clients pw kind asks chunks ws) (hp : (server c n kind pw y clock addr).Ok)
    {h : List Nat} {s' : Conc.State (Nat × Loc) Sh}
    (he : Conc.Exec (server c n kind pw y clock addr) (fun t => (t, opened (kind t) pw y (clock t) (chunks t))) shs s' h) (hnw : NoWrap n s'.mem) :
    ∃ evs rs ps m, evs.map (·.who) = h ∧ Story y.version clock asks (McWire.ofState (shardIdx c n) s) evs rs ps m ∧ NoLostUpdate evs ∧ OneWinner evs ∧
      ∀ t, Reads (s'.loc t).2.sent (rs t) ∧ ((s'.loc t).2.job = .val none → ps t = [] ∧ ∃ tail, Received (ws t) (chunks t).flatten (rs t).length tail) := by
  obtain ⟨_, h2⟩ := all_served hv hu hn hA hR (fun k it hk => ⟨(hs k it hk).1, (hs k it hk).2.1⟩) hver hclock hle hcl hp he
  obtain ⟨evs, rs, ps, m, g0, g1, g2⟩ := h2 hnw
  have hb : Bounded (McWire.ofState (shardIdx c n) s) := by
    intro k x hx
    obtain ⟨it, h5, rfl⟩ := Option.map_eq_some_iff.1 hx
    exact (hs k it h5).2.2
  exact ⟨evs, rs, ps, m, g0, g1, no_lost_update g1 hb, one_winner g1 hb, g2⟩

end Verif.Mix
