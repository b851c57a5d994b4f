import Mathlib.Tactic.Common
import Verif.Many.Progress
import Verif.Wire.Examples

/-!
C101, C102: what the order of the commands means for counters and locks, concrete cases, and commands on several keys.
-/

namespace Verif.Many

open Verif.Num Verif.Resp Verif.Cmd Verif.Cache Verif.Shard Verif.Map Verif.Wire Function

/-- The replies to client `t`, if the reply to the `i`-th command of all is `f i`. -/
def each (order : List Nat) (f : Nat → Reply) (t : Nat) : List Reply := (order.zipIdx.filter fun x => x.1 = t).map fun x => f x.2

theorem each_snoc (order : List Nat) (f : Nat → Reply) (t u : Nat) :
    each (order ++ [u]) f t = if t = u then each order f t ++ [f order.length] else each order f t := by
  unfold each
  rw [List.zipIdx_append, List.filter_append, List.map_append]
  by_cases h : t = u
  · subst h; simp
  · simp [h, Ne.symm h]

theorem drops_none {now now' : Int} {ks : List Bytes} {m m' : Store} (h : Drops now ks m m') {k : Bytes} (hk : m.see now' k = none) : m'.see now' k = none := by
  rcases h k with h | ⟨_, _, h⟩
  · rw [← hk]; exact see_congr h
  · unfold Store.see; rw [h]; rfl

theorem drops_some {now : Int} {ks : List Bytes} {m m' : Store} (h : Drops now ks m m') {k v : Bytes} (hk : m k = some ⟨v, none⟩) : m' k = some ⟨v, none⟩ := by
  rcases h k with h | ⟨_, h, _⟩
  · rw [h, hk]
  · unfold Store.see at h; rw [hk] at h; cases h

theorem drops_ever {now : Int} {ks : List Bytes} {m m' : Store} (h : Drops now ks m m') (hm : ∀ k, m k = none ∨ ∃ v, m k = some ⟨v, none⟩) : m' = m := by
  funext k
  rcases hm k with hk | ⟨v, hk⟩
  · rcases h k with h | ⟨_, _, h⟩
    · exact h
    · rw [h, hk]
  · rw [drops_some h hk, hk]

/-- **C102, counters.**  If all clients only do INCR of one key, which was not there, the `i`-th INCR of all is answered with `i` (counted from one): no
increment is lost and no number is given out twice. -/
theorem counter_exact {clock : Nat → Nat → Env} {asks : Nat → List Ask} {m m' : Store} {order : List Nat} {rs : Nat → List Reply} {k : Bytes}
    (h : Served clock asks m order rs m') (hasks : ∀ t, ∀ a ∈ asks t, a = .add k 1) (hm : ∀ now, m.see now k = none) (hl : order.length < 2 ^ 63) :
    (∀ t, rs t = each order (fun i => .int (i + 1)) t) ∧ (order ≠ [] → m' k = some ⟨shown order.length, none⟩) ∧
      (order = [] → ∀ now, m'.see now k = none) := by
  induction h with
  | none => exact ⟨fun _ => rfl, fun hc => absurd rfl hc, fun _ => hm⟩
  | @one order rs m1 m1' m2 t a r _ ha hdr hsv ih =>
    have hlen : order.length + 1 < 2 ^ 63 := by simpa using hl
    obtain ⟨ih1, ih2, ih3⟩ := ih (by omega)
    have := hasks t a (List.mem_of_getElem? ha)
    subst this
    have key : r = .int (order.length + 1) ∧ m2 k = some ⟨shown (order.length + 1 : Nat), none⟩ := by
      by_cases he : order = []
      · subst he
        have hn := drops_none hdr (ih3 rfl (clock t (rs t).length).now)
        cases hsv with
        | addNew _ => simp
        | add h1 _ _ => rw [hn] at h1; cases h1
        | addOver h1 _ _ => rw [hn] at h1; cases h1
        | addNot h1 _ => rw [hn] at h1; cases h1
      · have hk := drops_some hdr (ih2 he)
        have hs : m1'.see (clock t (rs t).length).now k = some ⟨shown order.length, none⟩ := by
          unfold Store.see; rw [hk]; rfl
        have hi : IsI64 (order.length : Int) := by unfold IsI64; omega
        have hnum : IsNumber (shown order.length) order.length := by
          rw [isNumber_iff, ← i64toa_shown]
          exact i64_text_roundtrip _ hi
        have huniq : ∀ {x : Int}, IsNumber (shown order.length) x → x = order.length := by
          intro x hx
          rw [isNumber_iff] at hx hnum
          rw [hnum] at hx
          simpa using hx.symm
        cases hsv with
        | addNew h1 => rw [hs] at h1; cases h1
        | add h1 h2 _ =>
          rw [hs] at h1; cases h1
          rw [huniq h2]
          simp
        | addOver h1 h2 h3 =>
          rw [hs] at h1; cases h1
          rw [huniq h2] at h3
          exact absurd (by unfold IsI64; omega) h3
        | addNot h1 h2 =>
          rw [hs] at h1; cases h1
          exact absurd ⟨_, hnum⟩ h2
    refine ⟨fun u => ?_, fun _ => by simpa using key.2, fun hc => by simp at hc⟩
    rw [each_snoc]
    by_cases hu : u = t
    · subst hu
      rw [update_self, if_pos rfl, ih1, key.1]
    · rw [update_of_ne hu, if_neg hu, ih1]

/-- **C102, locks.**  If all clients only do SET with NX of one key, which was not there, exactly the first command of all is answered with OK. -/
theorem lock_once {clock : Nat → Nat → Env} {asks : Nat → List Ask} {m m' : Store} {order : List Nat} {rs : Nat → List Reply} {k : Bytes}
    (h : Served clock asks m order rs m') (hasks : ∀ t, ∀ a ∈ asks t, ∃ v, a = .set k v .new .ever) (hm : ∀ now, m.see now k = none) :
    (∀ t, rs t = each order (fun i => if i = 0 then okay else .null) t) ∧ (order ≠ [] → ∃ v, m' k = some ⟨v, none⟩) ∧ (order = [] → ∀ now, m'.see now k = none) := by
  induction h with
  | none => exact ⟨fun _ => rfl, fun hc => absurd rfl hc, fun _ => hm⟩
  | @one order rs m1 m1' m2 t a r _ ha hdr hsv ih =>
    obtain ⟨ih1, ih2, ih3⟩ := ih
    obtain ⟨v, rfl⟩ := hasks t a (List.mem_of_getElem? ha)
    have key : r = (if order.length = 0 then okay else .null) ∧ ∃ v, m2 k = some ⟨v, none⟩ := by
      by_cases he : order = []
      · subst he
        have hn := drops_none hdr (ih3 rfl (clock t (rs t).length).now)
        cases hsv with
        | set _ => exact ⟨rfl, v, by simp [Life.upto]⟩
        | setNot h1 => exact absurd hn h1
      · obtain ⟨v', hk⟩ := ih2 he
        have hk := drops_some hdr hk
        have hs : m1'.see (clock t (rs t).length).now k = some ⟨v', none⟩ := by
          unfold Store.see; rw [hk]; rfl
        cases hsv with
        | set h1 =>
          have h1 : m1'.see (clock t (rs t).length).now k = none := h1
          rw [hs] at h1
          cases h1
        | setNot h1 => exact ⟨by simp [he], v', hk⟩
    refine ⟨fun u => ?_, fun _ => key.2, fun hc => by simp at hc⟩
    rw [each_snoc]
    by_cases hu : u = t
    · subst hu
      rw [update_self, if_pos rfl, ih1, key.1]
    · rw [update_of_ne hu, if_neg hu, ih1]

/-- Two clients, one INCR each, the second one first. -/
example : Served (fun _ _ => ⟨5, 5, false, .resp⟩) (fun t => if t < 2 then [.add [107] 1] else []) (fun _ => none) [1, 0]
    (update (update (fun _ => []) 1 [.int 1]) 0 [.int 2]) (update (update (fun _ => none) [107] (some ⟨shown 1, none⟩)) [107] (some ⟨shown 2, none⟩)) := by
  have h1 : Served (fun _ _ => ⟨5, 5, false, .resp⟩) (fun t => if t < 2 then [.add [107] 1] else []) (fun _ => none) [1] (update (fun _ => []) 1 [.int 1])
      (update (fun _ => none) [107] (some ⟨shown 1, none⟩)) := .one (t := 1) .none rfl (drops_refl _ _ _) (.addNew rfl)
  exact .one (t := 0) h1 rfl (drops_refl _ _ _) (.add (n := 1) (d := 1) (x := ⟨shown 1, none⟩) rfl (isNumber_iff.2 (by rw [← i64toa_shown]; exact i64_text_roundtrip 1 (by unfold IsI64; omega))) (by unfold IsI64; omega))

/-- Two clients, SET with NX each: the first one gets the lock. -/
example : Served (fun _ _ => ⟨5, 5, false, .resp⟩) (fun t => if t < 2 then [.set [107] [120] .new .ever] else []) (fun _ => none) [1, 0]
    (update (update (fun _ => []) 1 [okay]) 0 [.null]) (update (fun _ => none) [107] (some ⟨[120], none⟩)) := by
  have h1 : Served (fun _ _ => ⟨5, 5, false, .resp⟩) (fun t => if t < 2 then [.set [107] [120] .new .ever] else []) (fun _ => none) [1] (update (fun _ => []) 1 [okay])
      (update (fun _ => none) [107] (some ⟨[120], none⟩)) := .one (t := 1) .none rfl (drops_refl _ _ _) (.set rfl)
  exact .one (t := 0) h1 rfl (drops_refl _ _ _) (.setNot (by intro h; cases h))

/-! ### Concrete executions -/

/-- Follow a schedule; the second component is the threads in the order of their commits. -/
def runSched {L S : Type} (p : Conc.Prog L S) : List Nat → Conc.State L S → List Nat → Option (Conc.State L S × List Nat)
  | [], s, h => some (s, h)
  | t :: ts, s, h => (Conc.stepFn p t s).bind fun x => runSched p ts x.2 (if x.1 then h ++ [t] else h)

theorem runSched_exec {L S : Type} {p : Conc.Prog L S} {loc : Nat → L} {mem : Nat → S} {ts : List Nat} {s s' : Conc.State L S} {h h' : List Nat}
    (he : Conc.Exec p loc mem s h) (hr : runSched p ts s h = some (s', h')) : Conc.Exec p loc mem s' h' := by
  induction ts generalizing s h with
  | nil =>
    simp only [runSched, Option.some.injEq, Prod.mk.injEq] at hr
    obtain ⟨rfl, rfl⟩ := hr
    exact he
  | cons t ts ih =>
    unfold runSched at hr
    obtain ⟨⟨b, s1⟩, h1, h2⟩ := Option.bind_eq_some_iff.1 hr
    exact ih (.step he (Conc.stepFn_sound h1)) h2

theorem runSched_other {L S : Type} {p : Conc.Prog L S} {ts : List Nat} {s s' : Conc.State L S} {h h' : List Nat} (hr : runSched p ts s h = some (s', h')) {u : Nat}
    (hu : u ∉ ts) : s'.loc u = s.loc u ∧ s'.rel u = s.rel u ∧ s'.held u = s.held u := by
  induction ts generalizing s h with
  | nil =>
    simp only [runSched, Option.some.injEq, Prod.mk.injEq] at hr
    obtain ⟨rfl, rfl⟩ := hr
    exact ⟨rfl, rfl, rfl⟩
  | cons t ts ih =>
    unfold runSched at hr
    obtain ⟨⟨b, s1⟩, h1, h2⟩ := Option.bind_eq_some_iff.1 hr
    obtain ⟨a1, a2, a3⟩ := ih h2 (fun h => hu (by simp [h]))
    obtain ⟨b1, b2, b3⟩ := Conc.step_other (Conc.stepFn_sound h1) (u := u) (fun h => hu (by simp [h]))
    exact ⟨by rw [a1, b1], by rw [a2, b2], by rw [a3, b3]⟩

namespace Example

/-- Addresses of batches. -/
def addr (t : Nat) : Nat := if t < 2 ^ 60 then 16 * t + 16 else 2 ^ 64 + t

theorem addr_ok {c : Ctx} {n : Nat} {pw : Bytes} {y : Sys} {clock : Nat → Nat → Env} : (server c n pw y clock addr).Ok := by
  refine ⟨?_, ?_, ?_⟩
  · intro t u h
    simp only [server, addr] at h
    split at h <;> split at h <;> omega
  · intro t h
    simp only [server, addr] at h
    split at h <;> omega
  · intro t h
    simp only [server, addr, Conc.single] at h
    split at h <;> omega

/-- The clock of the first client is ahead of the others. -/
def clock (t _ : Nat) : Env := ⟨if t = 0 then 1000 else 900, 10 ^ 18, false, .resp⟩

/-- Only the first two of these clients have something to say. -/
def two {α : Type} (a b : List α) (t : Nat) : List α := if t = 0 then a else if t = 1 then b else []

theorem forall_two {α β : Type} {R : α → β → Prop} {a b : List α} {a' b' : List β} (h : List.Forall₂ R a a') (h' : List.Forall₂ R b b') (t : Nat) :
    List.Forall₂ R (two a b t) (two a' b' t) := by
  unfold two
  split
  · exact h
  · split
    · exact h'
    · exact .nil

/-- The server with these clients, at the start. -/
def init (a b : List Bytes) : Conc.State (Nat × Loc) Sh := Conc.start (fun t => (t, opened [] Wire.Example.sys (clock t) (two a b t))) (newCache ctx4)

/-- What the first two clients were sent; whether they are idle, can do nothing, and no counter has wrapped; and the order of the commits. -/
def outcome (a b : List Bytes) (sched : List Nat) : Option (List Bytes × List Bool × List Nat) :=
  (runSched (server ctx4 4 [] Wire.Example.sys clock addr) sched (init a b) []).map fun x =>
    ([(x.1.loc 0).2.sent, (x.1.loc 1).2.sent], [(match (x.1.loc 0).2.job with | .val none => true | _ => false),
      (match (x.1.loc 1).2.job with | .val none => true | _ => false),
      (Conc.stepFn (server ctx4 4 [] Wire.Example.sys clock addr) 0 x.1).isNone, (Conc.stepFn (server ctx4 4 [] Wire.Example.sys clock addr) 1 x.1).isNone,
      noWrapB 4 x.1.mem], x.2)

/-- An outcome in which both have ended is that of an execution that has ended. -/
theorem outcome_exec {a b : List Bytes} {sched : List Nat} {x y : Bytes} {h : List Nat} (hs : ∀ t ∈ sched, t < 2)
    (ho : outcome a b sched = some ([x, y], [true, true, true, true, true], h)) :
    ∃ s, Conc.Exec (server ctx4 4 [] Wire.Example.sys clock addr) (fun t => (t, opened [] Wire.Example.sys (clock t) (two a b t))) (newCache ctx4) s h ∧
      NoWrap 4 s.mem ∧ (∀ t, (s.loc t).2.job = .val none) ∧ (∀ t b s', ¬ Conc.Step (server ctx4 4 [] Wire.Example.sys clock addr) t s b s') ∧
      (s.loc 0).2.sent = x ∧ (s.loc 1).2.sent = y := by
  unfold outcome at ho
  rw [Option.map_eq_some_iff] at ho
  obtain ⟨⟨s, h'⟩, h1, h2⟩ := ho
  simp only [Prod.mk.injEq, List.cons.injEq, Option.isNone_iff_eq_none] at h2
  obtain ⟨⟨g1, g2, _⟩, ⟨g3, g4, g5, g6, g7, _⟩, rfl⟩ := h2
  have hother : ∀ t, 2 ≤ t → s.loc t = (t, opened [] Wire.Example.sys (clock t) []) ∧ s.rel t = false := by
    intro t ht
    obtain ⟨a1, a2, _⟩ := runSched_other h1 (u := t) (fun hm => absurd (hs t hm) (by omega))
    refine ⟨?_, by rw [a2]; rfl⟩
    rw [a1]
    unfold init Conc.start two
    simp only [if_neg (show t ≠ 0 by omega), if_neg (show t ≠ 1 by omega)]
  have hidle : ∀ t, (s.loc t).2.job = .val none := by
    intro t
    by_cases h0 : t = 0
    · subst h0
      split at g3
      · assumption
      · cases g3
    · by_cases h1 : t = 1
      · subst h1
        split at g4
        · assumption
        · cases g4
      · rw [(hother t (by omega)).1]
        rfl
  refine ⟨s, runSched_exec .start h1, noWrapB_iff.1 g7, hidle, fun t b s' hst => ?_, g1, g2⟩
  by_cases h0 : t = 0
  · subst h0; exact Conc.stepFn_complete hst g5
  · by_cases h1 : t = 1
    · subst h1; exact Conc.stepFn_complete hst g6
    · apply Conc.stepFn_complete hst
      obtain ⟨a1, a2⟩ := hother t (by omega)
      unfold Conc.stepFn
      rw [a2, a1]
      rfl

/-- `*2 $4 INCR $1 k`. -/
def incr : Bytes := [42, 50, 13, 10, 36, 52, 13, 10, 73, 78, 67, 82, 13, 10, 36, 49, 13, 10, 107, 13, 10]

theorem incr_words : Words (.add [107] 1) [[73, 78, 67, 82], [107]] := .incr ((spells_iff _ _ (by decide)).2 (by decide))

theorem num {t : Bytes} {n : Nat} (h : t ≠ [] ∧ t.length ≤ 32 ∧ (∀ b ∈ t, b ∈ ([48, 49, 50, 51, 52, 53, 54, 55, 56, 57] : Bytes)) ∧ decimal t = n) :
    Resp.NumText t n := h

theorem arg {a t : Bytes} (h : t ≠ [] ∧ t.length ≤ 32 ∧ (∀ b ∈ t, b ∈ ([48, 49, 50, 51, 52, 53, 54, 55, 56, 57] : Bytes)) ∧ decimal t = a.length)
    (h' : a.length ≤ 536870912) : EncArg a (36 :: (t ++ [13, 10] ++ a ++ [13, 10])) := ⟨t, h, h', rfl⟩

theorem incr_enc : Enc [[73, 78, 67, 82], [107]] incr :=
  ⟨[50], _, num (by decide), by decide, .cons (arg (t := [52]) (by decide) (by decide)) (.cons (arg (t := [49]) (by decide) (by decide)) .nil), rfl⟩

/-- Two clients, INCR of the same key, twice by the first one, whose bytes come in two packets. -/
theorem incr_clients : Clients (two [.add [107] 1, .add [107] 1] [.add [107] 1]) (two [incr ++ incr.take 5, incr.drop 5] [incr])
    (two [[[73, 78, 67, 82], [107]], [[73, 78, 67, 82], [107]]] [[[73, 78, 67, 82], [107]]]) (two [incr, incr] [incr]) := by
  refine ⟨forall_two (.cons incr_words (.cons incr_words .nil)) (.cons incr_words .nil), forall_two (.cons incr_enc (.cons incr_enc .nil)) (.cons incr_enc .nil),
    fun t => ?_⟩
  unfold two
  split
  · decide
  · split
    · decide
    · decide

theorem incr_one (t : Nat) : ∀ a ∈ two [.add [107] 1, .add [107] 1] [.add [107] 1] t, OneKey a := by
  intro a ha
  unfold two at ha
  split at ha
  · simp at ha; subst ha; trivial
  · split at ha
    · simp at ha; subst ha; trivial
    · simp at ha

/-- The second client comes in between the commands of the first. -/
def sched : List Nat := [0, 0, 0, 0, 0, 1, 1, 1, 1, 0, 1, 1, 0, 0, 0, 0, 0, 0]

theorem fine (t i : Nat) : Fine (clock t i) := by
  unfold Fine clock IsI64
  refine ⟨rfl, ?_, ?_, rfl⟩ <;> by_cases h : t = 0 <;> simp [h]

theorem late (t i : Nat) : 0 ≤ (clock t i).now := by unfold clock; split <;> decide

/-- Hypotheses of `clients_served`, `clients_answered`, `one_key_answered_partial` and `counter_exact`, for an interleaving; the replies are 1 and 3, and 2.  When the first has loaded, but not yet
stored, the number, the second can do nothing. -/
example : ctx4.Valid ∧ AllInv ctx4 4 (newCache ctx4) ∧ R ctx4 4 0 (newCache ctx4) ⟨fun _ => none, fun _ => 1⟩ ∧ (∀ t i, Fine (clock t i)) ∧
    (∃ s, Conc.Exec (server ctx4 4 [] Wire.Example.sys clock addr) (fun t => (t, opened [] Wire.Example.sys (clock t) (two [incr ++ incr.take 5, incr.drop 5] [incr] t)))
      (newCache ctx4) s [0, 1, 0] ∧ NoWrap 4 s.mem ∧ (∀ t, (s.loc t).2.job = .val none) ∧
      (∀ t b s', ¬ Conc.Step (server ctx4 4 [] Wire.Example.sys clock addr) t s b s') ∧
      (s.loc 0).2.sent = [58, 49, 13, 10, 58, 51, 13, 10] ∧ (s.loc 1).2.sent = [58, 50, 13, 10]) ∧
    (∀ t i, 0 ≤ (clock t i).now) ∧
    (outcome [incr ++ incr.take 5, incr.drop 5] [incr] [0, 0]).map (·.2.1) = some [false, false, false, true, true] :=
  ⟨ctx4_valid, allInv_new ctx4_valid 4, R_new ctx4 4 0, fine, outcome_exec (sched := sched) (by decide) (by decide +kernel), late, by decide +kernel⟩

/-! ### Several keys -/

/-- `*3 $4 MGET $1 a $1 b`. -/
def mget : Bytes := [42, 51, 13, 10, 36, 52, 13, 10, 77, 71, 69, 84, 13, 10, 36, 49, 13, 10, 97, 13, 10, 36, 49, 13, 10, 98, 13, 10]

/-- `*3 $3 SET $1 k $1 1`. -/
def set (k : UInt8) : Bytes := [42, 51, 13, 10, 36, 51, 13, 10, 83, 69, 84, 13, 10, 36, 49, 13, 10, k, 13, 10, 36, 49, 13, 10, 49, 13, 10]

/-- MGET of `a` and `b`, and at the same time SET of `a` and then of `b`. -/
def asks : Nat → List Ask := two [.mget [[97], [98]]] [.set [97] [49] .always .ever, .set [98] [49] .always .ever]

/-- As words. -/
def words : Nat → List (List Bytes) := two [[[77, 71, 69, 84], [97], [98]]] [[[83, 69, 84], [97], [49]], [[83, 69, 84], [98], [49]]]

theorem mget_words (t : Nat) : List.Forall₂ Words (asks t) (words t) := by
  have sp : ∀ w low : Bytes, low.map lower = low → w.map lower = low → Spells w low := fun w low h h' => (spells_iff w low h).2 h'
  have hset : ∀ k, Words (.set [k] [49] .always .ever) [[83, 69, 84], [k], [49]] := fun k =>
    .set (sp _ _ (by decide) (by decide)) .always .ever (Or.inl rfl)
  exact forall_two (.cons (.mget (sp _ _ (by decide) (by decide)) (by decide)) .nil) (.cons (hset 97) (.cons (hset 98) .nil)) t

theorem mget_enc (t : Nat) : List.Forall₂ Enc (words t) (two [mget] [set 97, set 98] t) := by
  have hset : ∀ k, Enc [[83, 69, 84], [k], [49]] (set k) := fun k =>
    ⟨[51], _, num ⟨by decide, by decide, by decide, rfl⟩, Nat.le_of_ble_eq_true rfl, .cons (arg (t := [51]) (by decide) (by decide)) (.cons (arg (t := [49]) ⟨by decide, by decide, by decide, rfl⟩ (Nat.le_of_ble_eq_true rfl))
      (.cons (arg (t := [49]) (by decide) (by decide)) .nil)), rfl⟩
  exact forall_two (.cons ⟨[51], _, num (by decide), by decide, .cons (arg (t := [52]) (by decide) (by decide))
    (.cons (arg (t := [49]) (by decide) (by decide)) (.cons (arg (t := [49]) (by decide) (by decide)) .nil)), rfl⟩ .nil) (.cons (hset 97) (.cons (hset 98) .nil)) t

/-- The second client comes in between the keys of the first. -/
def mgetSched : List Nat := [0, 0, 0, 0, 0, 1, 1, 1, 1, 1, 1, 1, 1, 1, 1, 0, 0, 0, 0, 0]

/-- What a server that does one command at a time could answer to the MGET. -/
theorem served_mget {order : List Nat} {rs : Nat → List Reply} {m : Store} (h : Served clock asks (fun _ => none) order rs m) :
    (((rs 1).length = 0 ∧ m = fun _ => none) ∨ ((rs 1).length = 1 ∧ m = update (fun _ => none) [97] (some ⟨[49], none⟩)) ∨
      ((rs 1).length = 2 ∧ m = update (update (fun _ => none) [97] (some ⟨[49], none⟩)) [98] (some ⟨[49], none⟩))) ∧
    (rs 0 = [] ∨ rs 0 = [.array [.null, .null]] ∨ rs 0 = [.array [.bulk [49], .null]] ∨ rs 0 = [.array [.bulk [49], .bulk [49]]]) := by
  induction h with
  | none => exact ⟨Or.inl ⟨rfl, rfl⟩, Or.inl rfl⟩
  | @one order rs m1 m1' m2 t a r _ ha hdr hsv ih =>
    obtain ⟨ih1, ih2⟩ := ih
    have hm : m1' = m1 := by
      refine drops_ever hdr fun k => ?_
      rcases ih1 with ⟨_, rfl⟩ | ⟨_, rfl⟩ | ⟨_, rfl⟩
      · exact Or.inl rfl
      · by_cases h1 : k = [97] <;> simp [update, h1]
      · by_cases h1 : k = [97] <;> by_cases h2 : k = [98] <;> simp [update, h1, h2]
    subst hm
    have hout : t = 0 ∨ t = 1 := by
      by_contra hc
      simp only [not_or] at hc
      simp [asks, two, hc.1, hc.2] at ha
    rcases hout with rfl | rfl
    · have h0 : rs 0 = [] := by
        rcases ih2 with h | h | h | h
        · exact h
        all_goals rw [h] at ha; simp [asks, two] at ha
      rw [h0] at ha
      simp only [asks, two, if_true, List.length_nil, List.getElem?_cons_zero, Option.some.injEq] at ha
      subst ha
      rw [update_self, update_of_ne (by decide), h0]
      cases hsv
      refine ⟨ih1, Or.inr ?_⟩
      rcases ih1 with ⟨_, rfl⟩ | ⟨_, rfl⟩ | ⟨_, rfl⟩
      · exact Or.inl (by simp [Store.see, asReply])
      · exact Or.inr (Or.inl (by simp [Store.see, asReply, update]; rfl))
      · exact Or.inr (Or.inr (by simp [Store.see, asReply, update]; rfl))
    · rw [update_self, update_of_ne (by decide)]
      refine ⟨?_, ih2⟩
      rcases ih1 with ⟨hl, rfl⟩ | ⟨hl, rfl⟩ | ⟨hl, rfl⟩
      · rw [hl] at ha
        simp only [asks, two, if_true, one_ne_zero, if_false, List.getElem?_cons_zero, Option.some.injEq] at ha
        subst ha
        cases hsv with
        | set _ => exact Or.inr (Or.inl ⟨by simp [hl], by simp [Life.upto]⟩)
        | setNot hc => exact absurd trivial hc
      · rw [hl] at ha
        simp only [asks, two, if_true, one_ne_zero, if_false, List.getElem?_cons_succ, List.getElem?_cons_zero, Option.some.injEq] at ha
        subst ha
        cases hsv with
        | set _ => exact Or.inr (Or.inr ⟨by simp [hl], by simp [Life.upto]⟩)
        | setNot hc => exact absurd trivial hc
      · rw [hl] at ha
        simp [asks, two] at ha

/-- **C102, negation for several keys.**  One client sets `a` and then `b`, another asks for both with MGET, and gets `b` but not `a`: no order of the three commands explains this
reply.  (MGET, DEL, EXISTS and TOUCH take the lock for each key anew.) -/
theorem mget_not_atomic : ∃ (s : Conc.State (Nat × Loc) Sh) (h : List Nat),
    (∀ t, List.Forall₂ Words (asks t) (words t)) ∧ (∀ t, List.Forall₂ Enc (words t) (two [mget] [set 97, set 98] t)) ∧
    Conc.Exec (server ctx4 4 [] Wire.Example.sys clock addr) (fun t => (t, opened [] Wire.Example.sys (clock t) (two [mget] [set 97, set 98] t))) (newCache ctx4) s h ∧
    NoWrap 4 s.mem ∧ (∀ t, (s.loc t).2.job = .val none) ∧ Reads (s.loc 0).2.sent [.array [.null, .bulk [49]]] ∧
    ∀ order rs m, Served clock asks (fun _ => none) order rs m → ¬ Reads (s.loc 0).2.sent (rs 0) := by
  obtain ⟨s, h1, h2, h3, _, h5, _⟩ := outcome_exec (a := [mget]) (b := [set 97, set 98]) (sched := mgetSched)
    (x := [42, 50, 13, 10, 36, 45, 49, 13, 10, 36, 49, 13, 10, 49, 13, 10]) (y := [43, 79, 75, 13, 10, 43, 79, 75, 13, 10]) (h := [0, 1, 1, 0]) (by decide) (by decide +kernel)
  have hr : Reads (s.loc 0).2.sent [.array [.null, .bulk [49]]] := by
    rw [h5]
    have := reads_snoc (answers_val (out := [.arr 2, .null, .bulk [49]]) (.array [.null, .bulk [49]]) (by simp [Val.Ok, Val.AllOk]) fun _ => rfl) reads_nil
    exact this
  refine ⟨s, _, mget_words, mget_enc, h1, h2, h3, hr, fun order rs m hsv hrd => ?_⟩
  obtain ⟨f, hr⟩ := hr
  obtain ⟨f', hrd⟩ := hrd
  have e1 := hr [] (f + f') (by omega)
  have e2 := hrd [] (f + f') (by omega)
  rcases (served_mget hsv).2 with h | h | h | h <;> rw [h] at e2
  · rw [h5] at e2
    simp [decodeN] at e2
  all_goals
    simp only [List.length_singleton] at e1 e2
    rw [e1] at e2
    simp at e2

/-- The clients of `mget_not_atomic`. -/
theorem mget_clients : Clients asks (two [mget] [set 97, set 98]) words (two [mget] [set 97, set 98]) :=
  ⟨mget_words, mget_enc, fun _ => List.prefix_refl _⟩

/-- Key by key, the reply is explained: `a` is looked up before both SETs, and `b` after them. -/
example : ∃ rs ps m, ServedByKey clock asks (fun _ => none) [0, 1, 1, 0] rs ps m ∧ ps 0 = [] ∧ rs 0 = [.array [.null, .bulk [49]]] ∧ rs 1 = [okay, okay] := by
  have h1 := ServedByKey.one (clock := clock) (asks := asks) (m := fun _ => none) (t := 0) .none (.part (a := .mget [[97], [98]]) (b := .get [97]) rfl rfl (by decide) (drops_refl _ _ _) .get)
  have h2 := h1.one (t := 1) (.last (a := .set [97] [49] .always .ever) (b := .set [97] [49] .always .ever) rfl rfl rfl (drops_refl _ _ _) (.set trivial))
  have h3 := h2.one (t := 1) (.last (a := .set [98] [49] .always .ever) (b := .set [98] [49] .always .ever) rfl rfl rfl (drops_refl _ _ _) (.set trivial))
  have h4 := h3.one (t := 0) (.last (a := .mget [[97], [98]]) (b := .get [98]) rfl rfl rfl (drops_refl _ _ _) .get)
  exact ⟨_, _, _, h4, by simp, by simp [update, whole, asReply, Store.see, Life.upto]; rfl, by simp [update, whole]⟩

/-- A key that is kept until 950, for a client at 1000 and, afterwards, one at 900: the first one has thrown it away. -/
example : Served clock (two [.get [107]] [.get [107]]) (fun k => if k = [107] then some ⟨[49], some 950⟩ else none) [0, 1]
    (update (update (fun _ => []) 0 [.null]) 1 [.null]) (fun _ => none) := by
  have hd : Drops 1000 [[107]] (fun k => if k = [107] then some ⟨[49], some 950⟩ else none) (fun _ => none) := by
    intro k
    by_cases hk : k = [107]
    · subst hk; exact Or.inr ⟨by simp, by simp [Store.see], rfl⟩
    · exact Or.inl (by simp [hk])
  have h1 := Served.one (clock := clock) (asks := two [.get [107]] [.get [107]]) (t := 0) .none rfl hd .get
  exact .one (t := 1) h1 rfl (drops_refl _ _ _) .get

/-- `parts_whole`: EXISTS of a key twice. -/
example : ServesAll 5 (fun _ => some ⟨[49], none⟩) (parts (.exist [[107], [107]])) [.int 1, .int 1] (fun _ => some ⟨[49], none⟩) ∧
    whole (.exist [[107], [107]]) [.int 1, .int 1] = .int 2 := by
  exact ⟨.cons Serves.exist (.cons Serves.exist .nil), rfl⟩

/-- `parts_whole`: DEL of a key twice. -/
example : ServesAll 5 (fun k => if k = [107] then some ⟨[49], none⟩ else none) (parts (.del [[107], [107]])) [.int 1, .int 0] (fun _ => none) := by
  have h1 : Serves 5 (fun k => if k = [107] then some ⟨[49], none⟩ else none) (.del [[107]]) (.int 1) (fun _ => none) := by
    have := Serves.del (now := 5) (m := fun k => if k = [107] then some ⟨[49], none⟩ else none) (ks := [[107]])
    convert this using 1
    · rfl
    · funext k
      by_cases hk : k = [107] <;> simp [hk]
  have h2 : Serves 5 (fun _ => none) (.del [[107]]) (.int 0) (fun _ => none) := by
    have := Serves.del (now := 5) (m := fun _ => none) (ks := [[107]])
    convert this using 1
    · rfl
    · funext k
      simp
  exact .cons h1 (.cons h2 .nil)

end Example

end Verif.Many
