import Mathlib.Tactic.Common
import Mathlib.Tactic.Linarith
import Verif.Cmd.Sem
import Verif.Cmd.TableProps

/-!
C45, C46: INCR/DECR and APPEND/PREPEND.
-/

namespace Verif.Cmd

open Verif.Num Verif.Resp Verif.Cache Function

/-! ### Executing a command -/

/-- A command line is executed on a connection that may execute commands, giving replies `out`.  `I`: what others may do between the calls of
the command. -/
def Executes (env : Spec.Env) (I : Spec.State → Spec.State → Prop) (oom : Bool) (e : Env) (pw : Bytes)
    (other : Fn → Env → List Bytes → Prog (List W)) (args : List Bytes) (s : Spec.State) (out : List W) (s' : Spec.State) : Prop :=
  ∃ st', Runs env I oom e.now (evcommand e pw other args ⟨true⟩) s (out, st') s'

theorem runs_map {env : Spec.Env} {I : Spec.State → Spec.State → Prop} {oom : Bool} {now : Int} {α β : Type} {f : α → β} {p : Prog α} {b : β}
    {s s' : Spec.State} (h : Runs env I oom now (p.map f) s b s') : ∃ a, Runs env I oom now p s a s' ∧ b = f a := by
  induction p generalizing s with
  | ret a =>
    obtain ⟨h1, h2⟩ := runs_ret h
    exact ⟨a, by rw [h2]; exact .ret a s, h1⟩
  | call c k ih =>
    obtain ⟨s1, r, s2, h1, h2, h3⟩ := runs_call h
    obtain ⟨a, h4, h5⟩ := ih r h3
    exact ⟨a, .call h1 h2 h4, h5⟩

theorem runs_map_of {env : Spec.Env} {I : Spec.State → Spec.State → Prop} {oom : Bool} {now : Int} {α β : Type} {f : α → β} {p : Prog α} {a : α}
    {s s' : Spec.State} (h : Runs env I oom now p s a s') : Runs env I oom now (p.map f) s (f a) s' := by
  induction h with
  | ret a s => exact .ret _ s
  | call h1 h2 _ ih => exact .call h1 h2 ih

theorem evcommand_known {e : Env} {pw : Bytes} {other : Fn → Env → List Bytes → Prog (List W)} {name low : Bytes} {as : List Bytes} {fn : Fn}
    (h : Spells name low) (hm : (low, fn) ∈ cmds) :
    evcommand e pw other (name :: as) ⟨true⟩ = call e pw other fn (name :: as) ⟨true⟩ := by
  unfold evcommand
  simp only [Bool.true_eq_false, false_and, and_false, if_false, List.headD_cons]
  rw [getCmd_of h hm]

/-! ### Single calls -/

theorem load_step {env : Spec.Env} {oom : Bool} {now : Int} {k : Bytes} {nt : Bool} {s s' : Spec.State} {r : Spec.Reply}
    (h : Spec.Step env oom now (.load k nt (some fun _ => none)) s r s') :
    s' = s ∧ ((s.dict.get now k = none ∧ r = ⟨.notfound, []⟩) ∨ ∃ it, s.dict.get now k = some it ∧ r = ⟨.found, [(k, it)]⟩) := by
  unfold Spec.Step at h
  simp only [] at h
  cases hg : s.dict.get now k with
  | none => rw [hg] at h; exact ⟨h.2, Or.inl ⟨rfl, h.1⟩⟩
  | some it => rw [hg] at h; exact ⟨h.2, Or.inr ⟨it, rfl, h.1⟩⟩

/-- A store without options. -/
def plain (key val : Bytes) (expires : Int) (cas flags : Nat) : Spec.Call :=
  .store { key, val, expires, ttl := 0, cas, flags, keepttl := false, casop := false, nx := false, xx := false, lowmem := false, ask := none }

theorem plain_step {env : Spec.Env} {oom : Bool} {now : Int} {key val : Bytes} {expires : Int} {cas flags : Nat} {s s' : Spec.State}
    {r : Spec.Reply} (h : Spec.Step env oom now (plain key val expires cas flags) s r s') :
    (oom = true ∧ r = ⟨.nomem, []⟩ ∧ s'.dict = s.dict) ∨
    ((r.status = .inserted ∨ r.status = .replaced) ∧ ∃ c, s'.dict = update s.dict key (some ⟨val, Spec.normExp expires, flags, c⟩)) := by
  unfold plain Spec.Step at h
  have ha : Spec.normExp (Spec.StoreArgs.asked ⟨key, val, expires, 0, cas, flags, false, false, false, false, false, none⟩ now) =
      Spec.normExp expires := by
    unfold Spec.StoreArgs.asked Spec.normExp
    simp only []
    by_cases hx : expires > 0
    · rw [if_pos hx, if_pos hx]
    · rw [if_neg hx, if_neg hx]; rfl
  simp only [Bool.false_and, Bool.false_eq_true, if_false, Option.isSome_none, false_and, or_self, Option.map_none, reduceCtorEq, ha,
    or_false] at h
  rcases h with ⟨h1, h2, h3⟩ | h
  · exact Or.inl ⟨h1, h2, by rw [h3]⟩
  · right
    cases hg : s.dict.get now key with
    | none =>
      rw [hg] at h
      simp only at h
      exact ⟨Or.inl (by rw [h.1]), _, by rw [h.2]⟩
    | some it =>
      rw [hg] at h
      simp only at h
      exact ⟨Or.inr (by rw [h.1]), _, by rw [h.2]⟩

/-- Something visible has a deadline that is zero or in the future. -/
theorem normExp_visible {d : Spec.Dict} {now : Int} {k : Bytes} {it : Spec.Item} (h0 : 0 < now) (h : d.get now k = some it) :
    Spec.normExp it.expires = it.expires := by
  unfold Spec.Dict.get at h
  rw [Option.filter_eq_some_iff] at h
  have := h.2
  unfold Spec.Item.visible at this
  unfold Spec.normExp
  simp at this
  split <;> omega

theorem get_held {env : Spec.Env} {key : Bytes} {s s' : Spec.State} (h : held env key s s') (now : Int) : s'.dict.get now key = s.dict.get now key := by
  unfold Spec.Dict.get
  rw [h.2 key rfl]

/-! ### Numbers -/

/-- Range of signed or unsigned 64-bit numbers. -/
def InR (uns : Bool) (x : Int) : Prop := if uns = true then 0 ≤ x ∧ x ≤ 2 ^ 64 - 1 else -(2 ^ 63) ≤ x ∧ x ≤ 2 ^ 63 - 1

/-- A stored value or argument denotes the number `x`: decimal text of at most 21 bytes; an empty text counts as zero. -/
def NumText (uns : Bool) (t : Bytes) (x : Int) : Prop := (t = [] ∧ x = 0) ∨ (t.length ≤ 21 ∧ DenotesInt t x ∧ InR uns x)

/-- For the unsigned commands: the text does not begin with a blank or a minus sign. -/
def Plain (uns : Bool) (t : Bytes) : Prop := uns = true → ∀ b, t.head? = some b → b ∉ ([32, 9, 10, 11, 12, 13, 45] : Bytes)

theorem inRange_iff (uns : Bool) (x : Int) : inRange uns x = true ↔ InR uns x := by
  unfold inRange InR
  cases uns <;> simp <;> omega

theorem wrap_id (uns : Bool) (x : Int) (h : InR uns x) : wrap uns x = x := by
  unfold InR at h
  unfold wrap
  cases uns
  · simp at h ⊢; omega
  · simp at h ⊢; omega

theorem parse64_iff {uns : Bool} {t : Bytes} {x : Int} (hp : Plain uns t) : parse64 uns t = some x ↔ NumText uns t x := by
  cases uns with
  | false => unfold parse64 NumText InR; simpa using parseI64_iff t x
  | true =>
    have hns : ∀ b, t.head? = some b → b ∉ ([32, 9, 10, 11, 12, 13] : Bytes) := fun b hb hc => hp rfl b hb (by simp at hc ⊢; tauto)
    have h45 : t.head? ≠ some 45 := fun hc => hp rfl 45 hc (by simp)
    unfold parse64 NumText InR
    simp only [if_true, Option.map_eq_some_iff]
    constructor
    · rintro ⟨n, h1, h2⟩
      rcases (parseU64_exact_partial t n hns).1 h1 with ⟨h3, h4⟩ | ⟨h3, h4, h5, h6⟩
      · exact Or.inl ⟨h3, by rw [← h2, h4]; rfl⟩
      · exact Or.inr ⟨h3, by rw [← h2]; exact h4, by rw [← h2]; exact Int.natCast_nonneg n, by rw [← h2, Int.ofNat_eq_natCast]; omega⟩
    · rintro (⟨h1, h2⟩ | ⟨h1, h2, h3, h4⟩)
      · exact ⟨0, (parseU64_exact_partial t 0 hns).2 (Or.inl ⟨h1, rfl⟩), by rw [h2]; rfl⟩
      · refine ⟨x.toNat, (parseU64_exact_partial t _ hns).2 (Or.inr ⟨h1, ?_, h45, by omega⟩), Int.toNat_of_nonneg h3⟩
        rw [Int.toNat_of_nonneg h3]; exact h2

theorem text64_denotes (uns : Bool) (x : Int) (h : InR uns x) : DenotesInt (text64 uns x) x := by
  unfold InR at h
  unfold text64
  cases uns with
  | false =>
    simp only [Bool.false_eq_true, if_false] at h ⊢
    have := i64_text_roundtrip x h
    rcases (parseI64_iff _ _).1 this with ⟨h1, h2⟩ | h1
    · exfalso
      rw [h2] at h1
      revert h1; decide
    · exact h1.2.1
  | true =>
    simp only [if_true] at h ⊢
    have := u64_text_roundtrip x.toNat (by omega)
    have hd := u64toa_digits x.toNat
    have hns : ∀ b, (u64toa x.toNat).head? = some b → b ∉ ([32, 9, 10, 11, 12, 13] : Bytes) := by
      intro b hb hc
      have h1 := digit_not_space (hd b (List.mem_of_mem_head? hb))
      rw [(isSpace_iff b).2 hc] at h1
      simp at h1
    rcases (parseU64_exact_partial _ _ hns).1 this with ⟨h1, _⟩ | h1
    · exact absurd h1 (u64toa_ne_nil _)
    · have := h1.2.1
      rwa [Int.toNat_of_nonneg h.1] at this

/-! ### INCR and DECR -/

/-- Nothing has changed for the keys that other threads could not change meanwhile. -/
def Same (env : Spec.Env) (key : Bytes) (s s' : Spec.State) : Prop := ∀ k, env.grp k = env.grp key → s'.dict k = s.dict k

/-- Only `key` has changed, to `it`. -/
def Only (env : Spec.Env) (key : Bytes) (it : Spec.Item) (s s' : Spec.State) : Prop :=
  s'.dict key = some it ∧ ∀ k, k ≠ key → env.grp k = env.grp key → s'.dict k = s.dict k

/-- Sum or difference. -/
def result (decr : Bool) (x δ : Int) : Int := if decr = true then x - δ else x + δ

/-- The number written in the reply. -/
def numReply (uns : Bool) (y : Int) : W := if uns = true then .uint y.toNat else .int y

theorem held_same {env : Spec.Env} {key : Bytes} {s s' : Spec.State} (h : held env key s s') : Same env key s s' := h.2

theorem Same.trans {env : Spec.Env} {key : Bytes} {a b c : Spec.State} (h : Same env key a b) (h' : Same env key b c) : Same env key a c :=
  fun k hk => (h' k hk).trans (h k hk)

theorem same_dict {env : Spec.Env} {key : Bytes} {a b : Spec.State} (h : b.dict = a.dict) : Same env key a b := fun k _ => by rw [h]

theorem only_update {env : Spec.Env} {key : Bytes} {it : Spec.Item} {s s1 s2 : Spec.State} (h : Same env key s s1)
    (h2 : s2.dict = update s1.dict key (some it)) : Only env key it s s2 :=
  ⟨by rw [h2, update_self], fun k hk hg => by rw [h2, update_of_ne hk, h k hg]⟩

theorem execIncr_cases {env : Spec.Env} {oom : Bool} {e : Env} {cmd key : Bytes} {δ : Int} {decr uns : Bool} {s s' : Spec.State} {out : List W}
    (h0 : 0 < e.now) (hr : Runs env (held env key) oom e.now (execIncr e cmd key δ decr uns) s out s') :
    ((∃ it, s.dict.get e.now key = some it ∧ parse64 uns it.value = none) ∧ Same env key s s' ∧
      out = [if e.proto = .memcache then .raw nonNumericValue else .err .invalidInteger]) ∨
    (s.dict.get e.now key = none ∧ e.proto = .memcache ∧ Same env key s s' ∧ out = [.raw [78, 79, 84, 95, 70, 79, 85, 78, 68, 13, 10]]) ∨
    ((s.dict.get e.now key = none → e.proto ≠ .memcache) ∧
      ∃ x, (s.dict.get e.now key = none ∧ x = 0 ∨ ∃ it, s.dict.get e.now key = some it ∧ parse64 uns it.value = some x) ∧
      ((¬ InR uns (result decr x δ) ∧ e.proto ≠ .memcache ∧ Same env key s s' ∧ out = [.err .overflow]) ∨
       (InR uns (result decr x δ) ∨ e.proto = .memcache) ∧
        ((oom = true ∧ out = [.err .outOfMemory] ∧ Same env key s s') ∨
         (out = (if e.proto = .memcache then [.raw (text64 uns (wrap uns (result decr x δ))), .raw [13, 10]]
            else if e.proto = .postgres then pgRow valueCol (text64 uns (wrap uns (result decr x δ))) cmd
            else [numReply uns (wrap uns (result decr x δ))]) ∧
          ∃ c, Only env key ⟨text64 uns (wrap uns (result decr x δ)), ((s.dict.get e.now key).map (·.expires)).getD 0,
            ((s.dict.get e.now key).map (·.flags)).getD 0, c⟩ s s')))) := by
  unfold execIncr at hr
  obtain ⟨s1, r, s2, hI, hs, hr⟩ := runs_call hr
  obtain ⟨h1, h2⟩ := load_step hs
  subst h1
  rw [get_held hI] at h2
  have hsame := held_same hI
  -- the second half
  have second : ∀ (x : Int) (exp : Int) (fl cas : Nat), (s.dict.get e.now key = none → e.proto ≠ .memcache) →
      (s.dict.get e.now key = none ∧ x = 0 ∨ ∃ it, s.dict.get e.now key = some it ∧ parse64 uns it.value = some x) →
      Spec.normExp exp = ((s.dict.get e.now key).map (·.expires)).getD 0 → fl = ((s.dict.get e.now key).map (·.flags)).getD 0 →
      Runs env (held env key) oom e.now
        (if !inRange uns (if decr then x - δ else x + δ) ∧ e.proto ≠ .memcache then .ret [.err .overflow]
        else .call (plain key (text64 uns (wrap uns (if decr then x - δ else x + δ))) exp cas fl) fun r =>
            if r.status = .nomem then .ret [.err .outOfMemory]
            else if r.status = .inserted ∨ r.status = .replaced then
              .ret (if e.proto = .memcache then [.raw (text64 uns (wrap uns (if decr then x - δ else x + δ))), .raw [13, 10]]
                else if e.proto = .postgres then pgRow valueCol (text64 uns (wrap uns (if decr then x - δ else x + δ))) cmd
                else [if uns then .uint (wrap uns (if decr then x - δ else x + δ)).toNat else .int (wrap uns (if decr then x - δ else x + δ))])
            else .ret [.failed]) s2 out s' →
      ∃ x, (s.dict.get e.now key = none ∧ x = 0 ∨ ∃ it, s.dict.get e.now key = some it ∧ parse64 uns it.value = some x) ∧
      ((¬ InR uns (result decr x δ) ∧ e.proto ≠ .memcache ∧ Same env key s s' ∧ out = [.err .overflow]) ∨
       (InR uns (result decr x δ) ∨ e.proto = .memcache) ∧
        ((oom = true ∧ out = [.err .outOfMemory] ∧ Same env key s s') ∨
         (out = (if e.proto = .memcache then [.raw (text64 uns (wrap uns (result decr x δ))), .raw [13, 10]]
            else if e.proto = .postgres then pgRow valueCol (text64 uns (wrap uns (result decr x δ))) cmd
            else [numReply uns (wrap uns (result decr x δ))]) ∧
          ∃ c, Only env key ⟨text64 uns (wrap uns (result decr x δ)), ((s.dict.get e.now key).map (·.expires)).getD 0,
            ((s.dict.get e.now key).map (·.flags)).getD 0, c⟩ s s'))) := by
    intro x exp fl cas _ hx hexp hfl hr
    refine ⟨x, hx, ?_⟩
    have hres : (if decr = true then x - δ else x + δ) = result decr x δ := rfl
    rw [hres] at hr
    by_cases hover : (!inRange uns (result decr x δ)) = true ∧ e.proto ≠ .memcache
    · rw [if_pos hover] at hr
      obtain ⟨h3, h4⟩ := runs_ret hr
      left
      refine ⟨?_, hover.2, by rw [h4]; exact hsame, h3⟩
      rw [← inRange_iff]
      simpa using hover.1
    · rw [if_neg hover] at hr
      right
      refine ⟨?_, ?_⟩
      · by_cases hm : e.proto = .memcache
        · exact Or.inr hm
        · left
          rw [← inRange_iff]
          by_contra hc
          exact hover ⟨by simpa using hc, hm⟩
      · obtain ⟨s3, r', s4, hI', hs', hr'⟩ := runs_call hr
        have hsame' := hsame.trans (held_same hI')
        rcases plain_step hs' with ⟨a1, a2, a3⟩ | ⟨a1, c, a3⟩
        · left
          rw [a2, if_pos rfl] at hr'
          obtain ⟨b1, b2⟩ := runs_ret hr'
          exact ⟨a1, b1, by rw [b2]; exact hsame'.trans (same_dict a3)⟩
        · right
          rw [if_neg (by rcases a1 with a1 | a1 <;> rw [a1] <;> decide), if_pos a1] at hr'
          obtain ⟨b1, b2⟩ := runs_ret hr'
          refine ⟨b1, c, ?_⟩
          rw [b2]
          rw [hexp, hfl] at a3
          exact only_update hsame' a3
  rcases h2 with ⟨h2, rfl⟩ | ⟨it, h2, rfl⟩
  · simp only [] at hr
    by_cases hm : e.proto = .memcache
    · rw [if_pos ⟨by decide, hm⟩] at hr
      obtain ⟨h3, h4⟩ := runs_ret hr
      exact Or.inr (Or.inl ⟨h2, hm, by rw [h4]; exact hsame, h3⟩)
    · rw [if_neg (by tauto)] at hr
      exact Or.inr (Or.inr ⟨fun _ => hm, second 0 0 0 0 (fun _ => hm) (Or.inl ⟨h2, rfl⟩) (by rw [h2]; rfl) (by rw [h2]; rfl) hr⟩)
  · simp only [] at hr
    cases hp : parse64 uns it.value with
    | none =>
      rw [hp] at hr
      simp only [] at hr
      left
      refine ⟨⟨it, h2, hp⟩, ?_⟩
      by_cases hm : e.proto = .memcache
      · rw [if_pos hm] at hr ⊢
        obtain ⟨h3, h4⟩ := runs_ret hr
        exact ⟨by rw [h4]; exact hsame, h3⟩
      · rw [if_neg hm] at hr ⊢
        obtain ⟨h3, h4⟩ := runs_ret hr
        exact ⟨by rw [h4]; exact hsame, h3⟩
    | some x =>
      rw [hp] at hr
      simp only [not_true_eq_false, false_and, if_false] at hr
      have hne : s.dict.get e.now key = none → e.proto ≠ .memcache := by rw [h2]; intro h; simp at h
      refine Or.inr (Or.inr ⟨hne, second x it.expires it.flags it.cas hne (Or.inr ⟨it, h2, hp⟩) ?_ (by rw [h2]; rfl) hr⟩)
      rw [h2, normExp_visible h0 h2]
      rfl

/-- The names INCR, DECR, INCRBY, DECRBY and, with U in front, their unsigned forms. -/
def incrName (decr uns by_ : Bool) : Bytes :=
  (if uns = true then [117] else []) ++ (if decr = true then [100, 101, 99, 114] else [105, 110, 99, 114]) ++
    (if by_ = true then [98, 121] else [])

/-- INCRBY key amount, or INCR key with amount one. -/
def IncrArgs (args : List Bytes) (decr uns : Bool) (key amount : Bytes) : Prop :=
  ∃ name, (args = [name, key, amount] ∧ Spells name (incrName decr uns true)) ∨
    (args = [name, key] ∧ Spells name (incrName decr uns false) ∧ amount = [49])

theorem one_plain (uns : Bool) : Plain uns [49] := by
  intro _ b hb
  simp at hb
  subst hb
  decide

theorem head_spells {name low : Bytes} (h : Spells name low) (hl : low.map lower = low) : name.head?.map lower = low.head? := by
  rw [← (spells_iff _ _ hl).1 h]
  simp

theorem incr_runs {env : Spec.Env} {oom : Bool} {e : Env} {pw : Bytes} {other : Fn → Env → List Bytes → Prog (List W)}
    {I : Spec.State → Spec.State → Prop} {args : List Bytes}
    {decr uns : Bool} {key amount : Bytes} {s s' : Spec.State} {out : List W} (ha : IncrArgs args decr uns key amount)
    (hr : Executes env I oom e pw other args s out s') :
    (parse64 uns amount = none ∧ s' = s ∧ out = [if e.proto = .memcache then .raw badDelta else .err .invalidInteger]) ∨
    ∃ δ cmd, parse64 uns amount = some δ ∧ Runs env I oom e.now (execIncr e cmd key δ decr uns) s out s' := by
  obtain ⟨st', hr⟩ := hr
  obtain ⟨name, ⟨rfl, hn⟩ | ⟨rfl, hn, rfl⟩⟩ := ha
  · have hl : (incrName decr uns true).map lower = incrName decr uns true := by cases decr <;> cases uns <;> decide
    have hu : decide (name.head?.map lower = some 117) = uns := by
      rw [head_spells hn hl]
      cases decr <;> cases uns <;> decide
    have key_ : ∀ (fn : Fn), (incrName decr uns true, fn) ∈ cmds → call e pw other fn [name, key, amount] ⟨true⟩ =
        Prog.map (·, ⟨true⟩) (cmdINCRDECRBY e [name, key, amount] decr) →
        (parse64 uns amount = none ∧ s' = s ∧ out = [if e.proto = .memcache then .raw badDelta else .err .invalidInteger]) ∨
        ∃ δ cmd, parse64 uns amount = some δ ∧ Runs env I oom e.now (execIncr e cmd key δ decr uns) s out s' := by
      intro fn hfn hc
      rw [evcommand_known hn hfn, hc] at hr
      obtain ⟨a, h1, h2⟩ := runs_map hr
      simp only [Prod.mk.injEq] at h2
      obtain ⟨rfl, _⟩ := h2
      unfold cmdINCRDECRBY at h1
      simp only [hu] at h1
      cases hp : parse64 uns amount with
      | none =>
        rw [hp] at h1
        simp only [] at h1
        left
        by_cases hm : e.proto = .memcache
        · rw [if_pos hm] at h1 ⊢
          obtain ⟨h3, h4⟩ := runs_ret h1
          exact ⟨rfl, h4, h3⟩
        · rw [if_neg hm] at h1 ⊢
          obtain ⟨h3, h4⟩ := runs_ret h1
          exact ⟨rfl, h4, h3⟩
      | some δ =>
        rw [hp] at h1
        exact Or.inr ⟨δ, _, rfl, h1⟩
    cases decr
    · exact key_ .cmdINCRBY (by cases uns <;> decide) rfl
    · exact key_ .cmdDECRBY (by cases uns <;> decide) rfl
  · have hl : (incrName decr uns false).map lower = incrName decr uns false := by cases decr <;> cases uns <;> decide
    have hu : decide (name.head?.map lower = some 117) = uns := by
      rw [head_spells hn hl]
      cases decr <;> cases uns <;> decide
    right
    refine ⟨1, if decr then [68, 69, 67, 82] else [73, 78, 67, 82], by cases uns <;> decide, ?_⟩
    have key_ : ∀ (fn : Fn), (incrName decr uns false, fn) ∈ cmds → call e pw other fn [name, key] ⟨true⟩ =
        Prog.map (·, ⟨true⟩) (cmdINCRDECR e [name, key] decr) → Runs env I oom e.now
          (execIncr e (if decr then [68, 69, 67, 82] else [73, 78, 67, 82]) key 1 decr uns) s out s' := by
      intro fn hfn hc
      rw [evcommand_known hn hfn, hc] at hr
      obtain ⟨a, h1, h2⟩ := runs_map hr
      simp only [Prod.mk.injEq] at h2
      obtain ⟨rfl, _⟩ := h2
      unfold cmdINCRDECR at h1
      simpa only [hu] using h1
    cases decr
    · exact key_ .cmdINCR (by cases uns <;> decide) rfl
    · exact key_ .cmdDECR (by cases uns <;> decide) rfl

/-- **C45** (`_partial`: false for memcache connections, see `memcache_decr_wraps`; texts for the unsigned commands without blank or minus in
front, see C55).  INCR, DECR, INCRBY, DECRBY and their unsigned forms on a RESP connection: for every amount and every stored value, while
other threads may change keys of other shards at any time.  `x` is the old number, zero for a missing key. -/
theorem incr_exact_partial {env : Spec.Env} {oom : Bool} {e : Env} {pw : Bytes} {other : Fn → Env → List Bytes → Prog (List W)}
    {args : List Bytes} {decr uns : Bool} {key amount : Bytes} {s s' : Spec.State} {out : List W}
    (ha : IncrArgs args decr uns key amount) (hproto : e.proto = .resp) (h0 : 0 < e.now)
    (hr : Executes env (held env key) oom e pw other args s out s')
    (hp : Plain uns amount) (hpv : ∀ it, s.dict.get e.now key = some it → Plain uns it.value) :
    -- the amount is not a number
    ((¬ ∃ δ, NumText uns amount δ) → out = [.err .invalidInteger] ∧ s' = s) ∧
    ∀ δ, NumText uns amount δ →
      -- the stored value is not a number
      (∀ it, s.dict.get e.now key = some it → (¬ ∃ x, NumText uns it.value x) → out = [.err .invalidInteger] ∧ Same env key s s') ∧
      ∀ x, (s.dict.get e.now key = none ∧ x = 0 ∨ ∃ it, s.dict.get e.now key = some it ∧ NumText uns it.value x) →
        -- out of range
        (¬ InR uns (result decr x δ) → out = [.err .overflow] ∧ Same env key s s') ∧
        -- in range
        (InR uns (result decr x δ) →
          (out = [numReply uns (result decr x δ)] ∧ ∃ it', Only env key it' s s' ∧ DenotesInt it'.value (result decr x δ) ∧
            it'.expires = ((s.dict.get e.now key).map (·.expires)).getD 0 ∧ it'.flags = ((s.dict.get e.now key).map (·.flags)).getD 0) ∨
          (oom = true ∧ out = [.err .outOfMemory] ∧ Same env key s s')) := by
  have hnm : e.proto ≠ .memcache := by rw [hproto]; decide
  have hnp : e.proto ≠ .postgres := by rw [hproto]; decide
  have huniq : ∀ {t x y}, Plain uns t → NumText uns t x → NumText uns t y → x = y := by
    intro t x y hpt hx hy
    rw [← parse64_iff hpt] at hx hy
    rw [hx] at hy
    simpa using hy
  rcases incr_runs ha hr with ⟨h1, h2, h3⟩ | ⟨δ, cmd, h1, h2⟩
  · rw [if_neg hnm] at h3
    refine ⟨fun _ => ⟨h3, h2⟩, ?_⟩
    intro δ hδ
    rw [← parse64_iff hp, h1] at hδ
    simp at hδ
  · have h1' := (parse64_iff hp).1 h1
    refine ⟨fun hc => absurd ⟨δ, h1'⟩ hc, ?_⟩
    intro δ' hδ'
    obtain rfl := huniq hp h1' hδ'
    rcases execIncr_cases h0 h2 with ⟨⟨it, b1, b2⟩, b3, b4⟩ | ⟨_, b2, _⟩ | ⟨_, x, b1, b2⟩
    · rw [if_neg hnm] at b4
      refine ⟨fun _ _ _ => ⟨b4, b3⟩, ?_⟩
      intro x hx
      exfalso
      rw [b1] at hx
      rcases hx with ⟨hx, _⟩ | ⟨it', hx, hx2⟩
      · simp at hx
      · simp at hx
        subst hx
        rw [← parse64_iff (hpv it b1), b2] at hx2
        simp at hx2
    · exact absurd b2 hnm
    · constructor
      · intro it hit hno
        exfalso
        rcases b1 with ⟨b1, _⟩ | ⟨it', b1, b3⟩
        · rw [b1] at hit; simp at hit
        · rw [b1] at hit
          simp at hit
          subst hit
          exact hno ⟨x, (parse64_iff (hpv it' b1)).1 b3⟩
      · intro x' hx'
        have hxx : x' = x := by
          rcases b1 with ⟨b1, rfl⟩ | ⟨it, b1, b3⟩ <;> rcases hx' with ⟨c1, c2⟩ | ⟨it', c1, c3⟩
          · exact c2
          · rw [b1] at c1; simp at c1
          · rw [b1] at c1; simp at c1
          · rw [b1] at c1
            simp at c1
            subst c1
            exact huniq (hpv _ b1) c3 ((parse64_iff (hpv _ b1)).1 b3)
        subst hxx
        rcases b2 with ⟨b3, _, b4, b5⟩ | ⟨b3, b4⟩
        · exact ⟨fun _ => ⟨b5, b4⟩, fun hc => absurd hc b3⟩
        · have hin : InR uns (result decr x' δ) := b3.resolve_right hnm
          refine ⟨fun hc => absurd hin hc, fun _ => ?_⟩
          rcases b4 with b4 | ⟨b4, c, b5⟩
          · exact Or.inr b4
          · left
            rw [if_neg hnm, if_neg hnp, wrap_id _ _ hin] at b4
            rw [wrap_id _ _ hin] at b5
            exact ⟨b4, _, b5, text64_denotes _ _ hin, rfl, rfl⟩

end Verif.Cmd
