import Mathlib.Tactic.Common
import Verif.McWire.Conn
import Verif.Wire.Examples

/-!
C100: what follows for the client, and a concrete case.
-/

namespace Verif.McWire

open Verif.Num Verif.Resp Verif.Cmd Verif.Cache Verif.Shard Verif.Map Function

/-- **C100.**  As long as the server does nothing else, a client that reads one reply for each command reads exactly the replies in mind. -/
theorem talk_reads {ver : Bytes} {l : List (Int × Int × Ask)} {m m' : Store} {rs : List Answer} {b : Bytes} (h : Talk ver l m (rs.map some) b m') :
    ∃ xs fuel, List.Forall₂ Answer.Read rs xs ∧ ∀ rest f, fuel ≤ f → Mc.readN f rs.length (b ++ rest) = some (xs, rest) := by
  generalize hq : rs.map some = qs at h
  induction h generalizing rs with
  | nil =>
    cases rs with
    | nil => exact ⟨[], 0, .nil, fun rest f _ => rfl⟩
    | cons => cases hq
  | @good now unix a l m m1 m2 r rs' b bs h1 h2 _ ih =>
    cases rs with
    | nil => cases hq
    | cons r' rs =>
      simp only [List.map_cons, List.cons.injEq, Option.some.injEq] at hq
      obtain ⟨rfl, hq⟩ := hq
      obtain ⟨xs, f2, a1, a2⟩ := ih hq
      obtain ⟨x, f1, b1, b2⟩ := h2
      refine ⟨x :: xs, f1 + f2, .cons b1 a1, fun rest f hf => ?_⟩
      rw [List.length_cons, Mc.readN, List.append_assoc, b2 _ _ (by omega)]
      simp only [Option.bind_some]
      rw [a2 _ _ (by omega)]
      rfl
  | off =>
    cases rs with
    | nil => cases hq
    | cons => simp at hq

/-- The number of a text. -/
theorem counter_unique {t : Bytes} {a b : Nat} (h : Counter t a) (h' : Counter t b) : a = b := by
  have h1 := h.1.u64 h.2
  rw [h'.1.u64 h'.2] at h1
  simpa using h1.symm

theorem digits_inj {a b : Nat} (h : Wire.digits a = Wire.digits b) : a = b := by
  rw [← u64toa_eq, ← u64toa_eq] at h
  have h1 := natOf_u64toa a
  rw [h, natOf_u64toa b] at h1
  simpa using h1.symm

/-- What a client can see of a key, without the token. -/
def Held.face (x : Held) : Bytes × Nat × Option Int := (x.value, x.flags, x.upto)

/-- **C100.**  The reply is determined, and so is what is kept, up to the tokens. -/
theorem serves_unique {ver : Bytes} {now unix : Int} {m m1 m2 : Store} {a : Ask} {r1 r2 : Answer} (h1 : Serves ver now unix m a r1 m1) (h2 : Serves ver now unix m a r2 m2) :
    r1 = r2 ∧ ∀ k, (m1.has k).map Held.face = (m2.has k).map Held.face := by
  have put : ∀ {k : Bytes} {x y : Held}, x.face = y.face → ∀ k', (((m.put k x).has k').map Held.face) = ((m.put k y).has k').map Held.face := by
    intro k x y h k'
    unfold Store.put
    by_cases hk : k' = k
    · subst hk; simp [h]
    · simp [update_of_ne hk]
  have no : ∀ {k : Bytes} {x : Held} {P : Prop}, m.see now k = none → m.see now k = some x → P := by
    intro k x P h h'; rw [h] at h'; cases h'
  have same : ∀ {k : Bytes} {x x' : Held}, m.see now k = some x → m.see now k = some x' → x = x' := by
    intro k x x' h h'; rw [h] at h'; simpa using h'
  cases h1 with
  | get | version | other => cases h2; exact ⟨rfl, fun _ => rfl⟩
  | set => cases h2; exact ⟨rfl, put rfl⟩
  | add h =>
    cases h2 with
    | add _ => exact ⟨rfl, put rfl⟩
    | addNot h' => exact absurd h h'
  | addNot h =>
    cases h2 with
    | add h' => exact absurd h' h
    | addNot h' => exact ⟨rfl, fun _ => rfl⟩
  | replace h =>
    cases h2 with
    | replace _ => exact ⟨rfl, put rfl⟩
    | replaceNot h' => exact absurd h' h
  | replaceNot h =>
    cases h2 with
    | replace h' => exact absurd h h'
    | replaceNot h' => exact ⟨rfl, fun _ => rfl⟩
  | cas h hc =>
    cases h2 with
    | cas _ _ => exact ⟨rfl, put rfl⟩
    | casOther h' hc' => cases same h h'; exact absurd hc hc'
    | casMissing h' => exact no h' h
  | casOther h hc =>
    cases h2 with
    | cas h' hc' => cases same h h'; exact absurd hc' hc
    | casOther h' hc' => exact ⟨rfl, fun _ => rfl⟩
    | casMissing h' => exact no h' h
  | casMissing h =>
    cases h2 with
    | cas h' _ => exact no h h'
    | casOther h' _ => exact no h h'
    | casMissing h' => exact ⟨rfl, fun _ => rfl⟩
  | join h hl =>
    cases h2 with
    | join h' _ => cases same h h'; exact ⟨rfl, put rfl⟩
    | joinTooLong h' hl' => cases same h h'; omega
    | joinMissing h' => exact no h' h
  | joinTooLong h hl =>
    cases h2 with
    | join h' hl' => cases same h h'; omega
    | joinTooLong h' hl' => exact ⟨rfl, fun _ => rfl⟩
    | joinMissing h' => exact no h' h
  | joinMissing h =>
    cases h2 with
    | join h' _ => exact no h h'
    | joinTooLong h' _ => exact no h h'
    | joinMissing h' => exact ⟨rfl, fun _ => rfl⟩
  | delete h =>
    cases h2 with
    | delete _ => exact ⟨rfl, fun _ => rfl⟩
    | deleteMissing h' => exact absurd h' h
  | deleteMissing h =>
    cases h2 with
    | delete h' => exact absurd h h'
    | deleteMissing h' => exact ⟨rfl, fun _ => rfl⟩
  | up h hn =>
    cases h2 with
    | up h' hn' => cases same h h'; cases counter_unique hn hn'; exact ⟨rfl, put rfl⟩
    | countNot h' hn' => cases same h h'; exact absurd ⟨_, hn⟩ hn'
    | countMissing h' => exact no h' h
  | down h hn =>
    cases h2 with
    | down h' hn' => cases same h h'; cases counter_unique hn hn'; exact ⟨rfl, put rfl⟩
    | countNot h' hn' => cases same h h'; exact absurd ⟨_, hn⟩ hn'
    | countMissing h' => exact no h' h
  | countNot h hn =>
    cases h2 with
    | up h' hn' => cases same h h'; exact absurd ⟨_, hn'⟩ hn
    | down h' hn' => cases same h h'; exact absurd ⟨_, hn'⟩ hn
    | countNot h' hn' => exact ⟨rfl, fun _ => rfl⟩
    | countMissing h' => exact no h' h
  | countMissing h =>
    cases h2 with
    | up h' hn' => exact no h h'
    | down h' hn' => exact no h h'
    | countNot h' hn' => exact no h h'
    | countMissing h' => exact ⟨rfl, fun _ => rfl⟩
  | touch h =>
    cases h2 with
    | touch h' => cases same h h'; exact ⟨rfl, put rfl⟩
    | touchMissing h' => exact no h' h
  | touchMissing h =>
    cases h2 with
    | touch h' => exact no h h'
    | touchMissing h' => exact ⟨rfl, fun _ => rfl⟩

/-- **C100, negation.**  Where the server does something else, a client never reads the reply in mind. -/
theorem off_is_off {ver : Bytes} {now unix : Int} {m m1 m2 : Store} {a : Ask} {r : Answer} {b : Bytes} (h1 : Off now m a b m1) (h2 : Serves ver now unix m a r m2) : ¬ Spoken r b := by
  have line : ∀ {l : Bytes}, Mc.Plain l → ∀ {r : Answer}, Spoken r (l ++ [13, 10]) → r.Read ([], l) := by
    rintro l hl r ⟨x, f, h, h'⟩
    have h3 := h' [] (f + 1) (by omega)
    rw [Mc.read_plain hl [] f] at h3
    simp only [Option.some.injEq, Prod.mk.injEq] at h3
    obtain ⟨h4, h5, _⟩ := h3
    rw [show (([], l) : List (Bytes × Bytes) × Bytes) = x from Prod.ext h4 h5]
    exact h
  have nul : ∀ {l : Bytes}, Mc.Plain l → ∀ {r : Answer}, ¬ Spoken r (l ++ [13, 10, 0]) := by
    rintro l hl r ⟨x, f, h, h'⟩
    have h3 := h' [] (f + 1) (by omega)
    rw [show l ++ [13, 10, 0] ++ [] = l ++ [13, 10] ++ [0] by simp, Mc.read_plain hl [0] f] at h3
    simp at h3
  cases h1 with
  | add h =>
    intro hs
    have := line (plain_simple (by simp)) hs
    cases h2 with
    | add h' => exact h h'
    | addNot _ => exact absurd this (by unfold Answer.Read; decide)
  | replace h => exact nul (plain_simple (by simp))
  | cas h => exact nul (plain_simple (by simp))
  | @below k d n c x h hn hd hd64 _ =>
    intro hs
    have := line (plain_number _) hs
    cases h2 with
    | down h' hn' _ =>
      rw [h] at h'
      cases h'
      cases counter_unique hn hn'
      unfold Answer.Read at this
      have := digits_inj (congrArg Prod.snd this)
      have := hn.2
      omega
    | countNot h' hn' => rw [h] at h'; cases h'; exact hn' ⟨_, hn⟩
    | countMissing h' => rw [h] at h'; cases h'
  | @odd down k d j c x h hn _ _ =>
    intro hs
    have := line (plain_number _) hs
    cases h2 with
    | up h' hn' _ => rw [h] at h'; cases h'; exact hn ⟨_, hn'⟩
    | down h' hn' _ => rw [h] at h'; cases h'; exact hn ⟨_, hn'⟩
    | countNot h' hn' =>
      obtain ⟨_, t, ht⟩ := this
      have hne : ∀ t : Bytes, ∀ b ∈ t, isDigit b = false → Wire.digits j ≠ t := by
        rintro t b hb hb' h
        rw [← u64toa_eq] at h
        have := u64toa_digits j b (h ▸ hb)
        rw [hb'] at this
        cases this
      rcases ht with ht | ht
      · exact hne _ 67 (by simp [Mc.clientError]) (by decide) ht
      · exact hne _ 83 (by simp [Mc.serverError]) (by decide) ht
    | countMissing h' => rw [h] at h'; cases h'

/-- One step: the key holds the same as before, or something with a token larger than all before, or nothing. -/
theorem step_key {ver : Bytes} {now unix : Int} {m m' : Store} {a : Ask} (h : (∃ r, Serves ver now unix m a r m') ∨ ∃ b, Off now m a b m') (k : Bytes) :
    m.used k ≤ m'.used k ∧ ∀ x, m'.has k = some x → m.has k = some x ∨ m.used k < x.cas ∧ x.cas ≤ m'.used k := by
  have same : m.used k ≤ m.used k ∧ ∀ x, m.has k = some x → m.has k = some x ∨ m.used k < x.cas ∧ x.cas ≤ m.used k := ⟨le_refl _, fun x hx => Or.inl hx⟩
  have put : ∀ {j : Bytes} {y : Held}, m.used j < y.cas →
      m.used k ≤ (m.put j y).used k ∧ ∀ x, (m.put j y).has k = some x → m.has k = some x ∨ m.used k < x.cas ∧ x.cas ≤ (m.put j y).used k := by
    intro j y hy
    unfold Store.put
    by_cases hk : k = j
    · subst hk
      simp only [update_self]
      refine ⟨hy.le, fun x hx => ?_⟩
      cases hx
      exact Or.inr ⟨hy, le_refl _⟩
    · simp only [update_of_ne hk]
      exact same
  have drop : ∀ {j : Bytes}, m.used k ≤ (m.drop j).used k ∧ ∀ x, (m.drop j).has k = some x → m.has k = some x ∨ m.used k < x.cas ∧ x.cas ≤ (m.drop j).used k := by
    intro j
    unfold Store.drop
    by_cases hk : k = j
    · subst hk
      simp
    · simp only [update_of_ne hk]
      exact same
  rcases h with ⟨r, h⟩ | ⟨b, h⟩
  · cases h <;> first | exact same | exact drop | exact put ‹_›
  · cases h <;> first | exact same | exact put ‹_›

/-- **C100.**  `cas` is safe: a client has seen a key with some value and token (`x`); then any commands are executed; then the client's `cas` with that token is answered
STORED.  Then the key still held exactly what the client saw: nobody has changed it in between. -/
theorem cas_safe {ver : Bytes} {m m' m'' : Store} {k v : Bytes} {x : Held} {l : List (Int × Int × Ask)} {rs : List (Option Answer)} {b : Bytes} {now now' unix : Int} {f : Nat} {exp : Int}
    (hx : m.see now k = some x) (hm : x.cas ≤ m.used k) (ht : Talk ver l m rs b m') (hc : Serves ver now' unix m' (.store (.cas x.cas) k v f exp) (.line stored) m'') :
    m'.see now' k = some x := by
  have hkeep : ∀ {l m rs b m'}, Talk ver l m rs b m' → x.cas ≤ m.used k → (∀ y, m.has k = some y → y = x ∨ x.cas < y.cas) →
      ∀ y, m'.has k = some y → y = x ∨ x.cas < y.cas := by
    intro l m rs b m' ht
    induction ht with
    | nil => intro _ h; exact h
    | good h1 _ _ ih =>
      intro h2 h3
      obtain ⟨h4, h5⟩ := step_key (Or.inl ⟨_, h1⟩) k
      refine ih (h2.trans h4) fun y hy => ?_
      rcases h5 y hy with h | h
      · exact h3 y h
      · exact Or.inr (by omega)
    | off h1 _ ih =>
      intro h2 h3
      obtain ⟨h4, h5⟩ := step_key (ver := ver) (unix := 0) (Or.inr ⟨_, h1⟩) k
      refine ih (h2.trans h4) fun y hy => ?_
      rcases h5 y hy with h | h
      · exact h3 y h
      · exact Or.inr (by omega)
  unfold Store.see at hx
  rw [Option.filter_eq_some_iff] at hx
  have h3 := hkeep ht hm fun y hy => by rw [hx.1] at hy; cases hy; exact Or.inl rfl
  cases hc with
  | @cas _ _ _ _ _ _ y h1 h2 _ =>
    have h4 := h1
    unfold Store.see at h4
    rw [Option.filter_eq_some_iff] at h4
    rcases h3 y h4.1 with h | h
    · rw [h1, h]
    · omega

namespace Example

/-- `set k 5 100 2` with `41`, `incr k 1`, `gets k z`, `cas k 7 0 1 3` with `x`, `cas k 7 0 1 2` with `x`, `add k 0 0 1` with `y`, `delete k`, `version`. -/
def asks : List Ask :=
  [.store .set [107] [52, 49] 5 100, .count false [107] 1, .get true [[107], [122]], .store (.cas 3) [107] [120] 7 0, .store (.cas 2) [107] [120] 7 0,
   .store .add [107] [121] 0 0, .delete [107], .version]

/-- The storage requests. -/
def r1 : Mc.Store := ⟨.set, [107], [53], [49, 48, 48], [50], [48], false, [52, 49]⟩
/-- The `cas` with the token. -/
def r2 : Mc.Store := ⟨.cas, [107], [55], [48], [49], [51], false, [120]⟩
/-- The `cas` with an old token. -/
def r3 : Mc.Store := ⟨.cas, [107], [55], [48], [49], [50], false, [120]⟩
/-- The `add`. -/
def r4 : Mc.Store := ⟨.add, [107], [48], [48], [49], [48], false, [121]⟩

/-- On the wire. -/
def wire : List Bytes :=
  [r1.wire, [105, 110, 99, 114, 32, 107, 32, 49, 13, 10], [103, 101, 116, 115, 32, 107, 32, 122, 13, 10], r2.wire, r3.wire, r4.wire,
   [100, 101, 108, 101, 116, 101, 32, 107, 13, 10], [118, 101, 114, 115, 105, 111, 110, 13, 10]]

/-- The first line and a byte, then pieces of seven bytes, with the last byte missing. -/
def chunks : List Bytes := (List.range 20).map fun i => ((wire.flatten.dropLast.drop 16).drop (7 * i)).take 7

/-- Ten seconds between two commands. -/
def clock (i : Nat) : Env := ⟨1000 + 10000000000 * min i 100, 10 ^ 18, false, .memcache⟩

theorem written : List.Forall₂ Writes asks wire := by
  have key : ∀ b : UInt8, b = 107 ∨ b = 122 → Mc.Key [b] := by
    rintro b (rfl | rfl) <;> (unfold Mc.Key; decide)
  have nat : ∀ (t : Bytes) (n : Nat), (t ≠ [] ∧ t.length ≤ 20 ∧ (∀ b ∈ t, b ∈ ([48, 49, 50, 51, 52, 53, 54, 55, 56, 57] : Bytes)) ∧ decimal t = n) → Mc.NatText t n :=
    fun t n h => h
  have ok : ∀ (r : Mc.Store) (f : Nat) (e c : Nat), r.key = [107] → (r.flags, f) ∈ ([([53], 5), ([55], 7), ([48], 0)] : List (Bytes × Nat)) →
      (r.exp, e) ∈ ([([49, 48, 48], 100), ([48], 0)] : List (Bytes × Nat)) → Mc.NatText r.size r.data.length → r.data.length ≤ 536870912 →
      Mc.NatText r.token c → c < 2 ^ 64 → r.Ok f e c := by
    intro r f e c h1 h2 h3 h4 h5 h6 h7
    refine ⟨by rw [h1]; exact key _ (Or.inl rfl), ?_, ?_, ?_, ?_, h4, h5, h6, h7⟩
    · simp only [List.mem_cons, Prod.mk.injEq, List.not_mem_nil, or_false] at h2
      rcases h2 with ⟨h, rfl⟩ | ⟨h, rfl⟩ | ⟨h, rfl⟩ <;> rw [h] <;> exact nat _ _ (by decide)
    · simp only [List.mem_cons, Prod.mk.injEq, List.not_mem_nil, or_false] at h2
      omega
    · simp only [List.mem_cons, Prod.mk.injEq, List.not_mem_nil, or_false] at h3
      rcases h3 with ⟨h, rfl⟩ | ⟨h, rfl⟩ <;> rw [h]
      · exact Or.inl ⟨100, nat _ _ (by decide), rfl, by decide⟩
      · exact Or.inl ⟨0, nat _ _ (by decide), rfl, by decide⟩
    · simp only [List.mem_cons, Prod.mk.injEq, List.not_mem_nil, or_false] at h3
      unfold IsI64
      omega
  refine .cons (.store (r := r1) (how := .set) (ok r1 5 100 0 rfl (by decide) (by decide) (nat _ _ (by decide)) (by decide) (nat _ _ (by decide)) (by decide)) rfl rfl (by simp)) ?_
  refine .cons (.count (down := false) (key _ (Or.inl rfl)) (nat [49] 1 (by decide)) (by decide)) ?_
  refine .cons (.get (tokens := true) (by simp) (by simp; exact ⟨key _ (Or.inl rfl), key _ (Or.inr rfl)⟩)) ?_
  refine .cons (.store (r := r2) (how := .cas 3) (ok r2 7 0 3 rfl (by decide) (by decide) (nat _ _ (by decide)) (by decide) (nat _ _ (by decide)) (by decide)) rfl rfl (by simp)) ?_
  refine .cons (.store (r := r3) (how := .cas 2) (ok r3 7 0 2 rfl (by decide) (by decide) (nat _ _ (by decide)) (by decide) (nat _ _ (by decide)) (by decide)) rfl rfl (by simp)) ?_
  refine .cons (.store (r := r4) (how := .add) (ok r4 0 0 0 rfl (by decide) (by decide) (nat _ _ (by decide)) (by decide) (nat _ _ (by decide)) (by decide)) rfl rfl (by simp)) ?_
  exact .cons (.delete (key _ (Or.inl rfl)) (by decide)) (.cons .version .nil)

/-- Hypotheses of `mc_served_partial`, and what is sent: `STORED`, `42`, `VALUE k 5 2 3` with `42` and `END`, `STORED`, `EXISTS`, `EXISTS` (where `NOT_STORED` is in mind), `DELETED`; the
last command is not complete. -/
example : ctx4.Valid ∧ ctx4.usecas = true ∧ AllInv ctx4 4 (newCache ctx4) ∧ R ctx4 4 0 (newCache ctx4) ⟨fun _ => none, fun _ => 1⟩ ∧ (∀ i, Fine (clock i)) ∧
    (∀ i, (clock i).now ≤ (clock (i + 1)).now) ∧ (∀ b ∈ Wire.Example.sys.version, 32 ≤ b) ∧ List.Forall₂ Writes asks wire ∧
    sniff (wire.flatten.take 16) = .got (some .memcache) ∧ (wire.flatten.take 16 :: chunks).flatten <+: wire.flatten ∧
    (Wire.Example.sentOf (serve ctx4 4 [] Wire.Example.sys clock (fun _ _ => .more) id (newCache ctx4) (wire.flatten.take 16 :: chunks)) =
      some (stored ++ [13, 10, 52, 50, 13, 10, 86, 65, 76, 85, 69, 32, 107, 32, 53, 32, 50, 32, 51, 13, 10, 52, 50, 13, 10, 69, 78, 68, 13, 10] ++ stored ++ [13, 10] ++
        exists_ ++ [13, 10] ++ exists_ ++ [13, 10] ++ deleted ++ [13, 10], true)) := by
  refine ⟨ctx4_valid, rfl, allInv_new ctx4_valid 4, R_new ctx4 4 0, fun i => ?_, fun i => ?_, by decide, written, by decide +kernel, by decide +kernel, ?_⟩
  · unfold Fine clock IsI64
    refine ⟨rfl, ?_, ?_, rfl, ?_, ?_⟩ <;> dsimp only <;> omega
  · unfold clock; dsimp only; omega
  · decide +kernel

/-- **C100, negation.**  `set k 5 100 2` with `41` and then `add k 0 0 1` with `y` on a new connection to an empty cache: the client reads `STORED` and `EXISTS`, where `STORED` and
`NOT_STORED` is in mind. -/
theorem mc_not_served : ∃ sent,
    Wire.Example.sentOf (serve ctx4 4 [] Wire.Example.sys clock (fun _ _ => .more) id (newCache ctx4) [r1.wire ++ r4.wire]) = some (sent, true) ∧
    Mc.readN 3 2 sent = some ([([], stored), ([], exists_)], []) ∧
    List.Forall₂ Writes [.store .set [107] [52, 49] 5 100, .store .add [107] [121] 0 0] [r1.wire, r4.wire] ∧
    ∀ ver unix1 unix2 q1 q2 m1 m2, Serves ver (clock 0).now unix1 ⟨fun _ => none, fun _ => 1⟩ (.store .set [107] [52, 49] 5 100) q1 m1 →
      Serves ver (clock 1).now unix2 m1 (.store .add [107] [121] 0 0) q2 m2 → q1 = .line stored ∧ q2 = .line notStored := by
  refine ⟨stored ++ [13, 10] ++ exists_ ++ [13, 10], by decide +kernel, by rfl, ?_, ?_⟩
  · have := written
    unfold asks wire at this
    cases this with
    | cons h1 h => cases h with | cons _ h => cases h with | cons _ h => cases h with | cons _ h => cases h with | cons _ h => cases h with
      | cons h6 h => exact .cons h1 (.cons h6 .nil)
  · intro ver unix1 unix2 q1 q2 m1 m2 h1 h2
    cases h1 with
    | set hc =>
      cases h2 with
      | add h _ =>
        exfalso
        revert h
        unfold Store.see Store.put mcDeadline
        simp [clock]
        decide
      | addNot h => exact ⟨rfl, rfl⟩

/-- **C100, negation.**  `get HTTP/1.1` is a well-formed request; as the first one of a connection it is taken for HTTP. -/
theorem get_sniffed_as_http : ∃ w, Writes (.get false [[72, 84, 84, 80, 47, 49, 46, 49]]) w ∧ sniff w = .got (some .http) :=
  ⟨_, .get (by simp) (by simp; unfold Mc.Key; decide), by decide +kernel⟩

/-- Hypotheses of `sniff_mc`. -/
example : (97 : UInt8) ≤ 103 ∧ (∀ c ∈ ([103, 101, 116, 32, 107, 13] : Bytes), c ≠ 10) ∧ ¬ [32, 72, 84, 84, 80] <:+: ([103, 101, 116, 32, 107, 13] : Bytes) := by decide

/-- A key `k` with the value `5` and the token 3. -/
def one : Store := ⟨update (fun _ => none) [107] (some ⟨[53], 0, none, 3⟩), fun _ => 3⟩

theorem one_see (now : Int) : one.see now [107] = some ⟨[53], 0, none, 3⟩ := by
  unfold Store.see one
  simp

/-- Hypotheses of `talk_reads`, `cas_safe`, `step_key`, and `serves_unique`: `version`, and then `cas k 0 0 1 3`. -/
example : Talk [49] [(5, 5, .version)] one ([Answer.line (versionIs ++ [49])].map some) (versionIs ++ [49] ++ [13, 10] ++ []) one ∧
    one.see 5 [107] = some ⟨[53], 0, none, 3⟩ ∧ 3 ≤ one.used [107] ∧
    Serves [49] 6 6 one (.store (.cas 3) [107] [54] 0 0) (.line stored) (one.put [107] ⟨[54], 0, none, 4⟩) :=
  ⟨.good .version (spoken_line (plain_version (by decide))) (.nil _), one_see 5, by decide, .cas (one_see 6) rfl (by decide)⟩

/-- Hypotheses of `off_is_off`: `decr k 7`. -/
example : Off 5 one (.count true [107] 7) (Wire.digits (2 ^ 64 + 5 - 7) ++ [13, 10]) (one.put [107] ⟨Wire.digits (2 ^ 64 + 5 - 7), 0, none, 4⟩) ∧
    Serves [49] 5 5 one (.count true [107] 7) (.line (Wire.digits (5 - 7))) (one.put [107] ⟨Wire.digits (5 - 7), 0, none, 4⟩) := by
  have hc : Counter [53] 5 := ⟨⟨by decide, by decide, by decide, by decide⟩, by decide⟩
  exact ⟨.below (one_see 5) hc (by decide) (by decide) (by decide), .down (one_see 5) hc (by decide)⟩

end Example

end Verif.McWire
