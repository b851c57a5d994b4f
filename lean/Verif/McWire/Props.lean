import Mathlib.Tactic.Common
import Mathlib.Tactic.Linarith
import Verif.McWire.Model
import Verif.Wire.Props

/-!
C100: on a memcache connection the server is the one a user has in mind, but for the listed differences.
-/

namespace Verif.McWire

open Verif.Num Verif.Resp Verif.Cmd Verif.Cache Verif.Shard Verif.Map Function

/-! ### What is kept -/

/-- An item. -/
def held (it : Spec.Item) : Held := ⟨it.value, it.flags, if it.expires = 0 then none else some it.expires, it.cas⟩

/-- The store is what the dictionary shows at `now`, and no key had a token beyond the counter of its group. -/
def Agrees (grp : Bytes → Nat) (now : Int) (s : Spec.State) (m : Store) : Prop :=
  (∀ k, (s.dict.get now k).map held = m.see now k) ∧ ∀ k, m.used k ≤ s.tok (grp k)

theorem see_get (d : Spec.Dict) (u : Bytes → Nat) (now : Int) (k : Bytes) : (⟨fun k => (d k).map held, u⟩ : Store).see now k = (d.get now k).map held := by
  unfold Store.see Spec.Dict.get
  simp only []
  cases d k with
  | none => rfl
  | some it =>
    simp only [Option.map_some, Option.filter_some]
    have : (held it).upto.all (fun d => decide (now < d)) = it.visible now := by
      unfold held Spec.Item.visible
      by_cases h : it.expires = 0 <;> simp [h]
    rw [this]
    split <;> rfl

theorem see_later {m : Store} {now t : Int} (h : now ≤ t) (k : Bytes) : m.see t k = (m.see now k).filter fun x => x.upto.all fun d => decide (t < d) := by
  unfold Store.see
  cases m.has k with
  | none => rfl
  | some x =>
    obtain ⟨v, f, u, c⟩ := x
    simp only [Option.filter_some]
    cases u with
    | none => simp [Option.filter]
    | some d =>
      by_cases h1 : t < d
      · have h2 : now < d := by omega
        simp [Option.filter, h1, h2]
      · by_cases h2 : now < d <;> simp [Option.filter, h1, h2]

theorem Agrees.later {grp : Bytes → Nat} {now t : Int} {s : Spec.State} {m : Store} (h : Agrees grp now s m) (hle : now ≤ t) : Agrees grp t s m := by
  refine ⟨fun k => ?_, h.2⟩
  rw [see_later hle, ← h.1, ← see_get _ m.used, ← see_get _ m.used, see_later hle]

theorem see_congr {m m' : Store} {now : Int} {k : Bytes} (h : m.has k = m'.has k) : m.see now k = m'.see now k := by
  unfold Store.see; rw [h]

theorem Agrees.put {grp : Bytes → Nat} {now : Int} {s s' : Spec.State} {m : Store} (h : Agrees grp now s m) {k : Bytes} {it : Spec.Item} (hk : s'.dict k = some it)
    (hd : ∀ j, j ≠ k → s'.dict j = s.dict j) (ht : ∀ i, s.tok i ≤ s'.tok i) (hc : it.cas ≤ s'.tok (grp k)) : Agrees grp now s' (m.put k (held it)) := by
  refine ⟨fun j => ?_, fun j => ?_⟩
  · rw [← see_get _ m.used]
    by_cases hj : j = k
    · subst hj
      exact see_congr (by simp only [Store.put, update_self, hk, Option.map_some])
    · have : Store.see (m.put k (held it)) now j = m.see now j := see_congr (by simp only [Store.put, update_of_ne hj])
      rw [this, ← h.1, ← see_get _ m.used]
      exact see_congr (by simp only [hd j hj])
  · unfold Store.put
    by_cases hj : j = k
    · subst hj; simpa [held] using hc
    · simp only [update_of_ne hj]
      exact (h.2 j).trans (ht _)

theorem Agrees.same {grp : Bytes → Nat} {now : Int} {s s' : Spec.State} {m : Store} (h : Agrees grp now s m) (hd : s'.dict = s.dict) (ht : ∀ i, s.tok i ≤ s'.tok i) :
    Agrees grp now s' m := ⟨fun k => by rw [hd]; exact h.1 k, fun k => (h.2 k).trans (ht _)⟩

theorem Agrees.drop {grp : Bytes → Nat} {now : Int} {s s' : Spec.State} {m : Store} (h : Agrees grp now s m) {k : Bytes} (hk : s'.dict k = none)
    (hd : ∀ j, j ≠ k → s'.dict j = s.dict j) (ht : ∀ i, s.tok i ≤ s'.tok i) : Agrees grp now s' (m.drop k) := by
  refine ⟨fun j => ?_, fun j => (h.2 j).trans (ht _)⟩
  rw [← see_get _ m.used]
  by_cases hj : j = k
  · subst hj
    exact see_congr (by simp only [Store.drop, update_self, hk, Option.map_none])
  · have : Store.see (m.drop k) now j = m.see now j := see_congr (by simp only [Store.drop, update_of_ne hj])
    rw [this, ← h.1, ← see_get _ m.used]
    exact see_congr (by simp only [hd j hj])

/-! ### Tokens -/

section
variable {env : Spec.Env} {oom : Bool} {now : Int}

theorem step_tok {c : Spec.Call} {s s' : Spec.State} {r : Spec.Reply} (h : Spec.Step env oom now c s r s') (i : Nat) : s.tok i ≤ s'.tok i := by
  have hup : ∀ j, s.tok i ≤ update s.tok j (s.tok j + 1) i := by
    intro j
    by_cases hj : i = j
    · subst hj; simp
    · rw [update_of_ne hj]
  unfold Spec.Step at h
  cases c with
  | load k nt cb =>
    simp only [] at h
    split at h
    · rw [h.2]
    · split at h
      · rw [h.2]
      · split at h
        · rw [h.2]
        · rcases h with ⟨_, rfl⟩ | ⟨_, _, rfl⟩ <;> exact hup _
  | store a =>
    simp only [] at h
    split at h
    · rw [h.2]; exact hup _
    · rcases h with ⟨_, _, rfl⟩ | h
      · exact hup _
      · cases hg : s.dict.get now a.key with
        | none =>
          rw [hg] at h
          simp only [] at h
          split_ifs at h
          all_goals first
            | (rcases h.2 with rfl | ⟨_, _, _, rfl⟩ <;> exact hup _)
            | (rw [h.2]; exact hup _)
        | some it =>
          rw [hg] at h
          simp only [] at h
          split_ifs at h <;> (rw [h.2]; exact hup _)
  | delete k ask =>
    simp only [] at h
    split at h
    · rw [h.2]
    · split_ifs at h <;> rw [h.2]
  | iter one cb =>
    simp only [] at h
    split at h
    · rw [h.2]
    · rw [h.2.2.2]
  | sweep one => rw [h.2]
  | clear one => rw [h.2]

theorem runs_tok {α : Type} {p : Prog α} {s s' : Spec.State} {a : α} (h : Runs env alone oom now p s a s') (i : Nat) : s.tok i ≤ s'.tok i := by
  induction h with
  | ret => exact le_refl _
  | call h1 h2 _ ih =>
    cases h1
    exact (step_tok h2 i).trans ih

/-- The key holds something with a new token. -/
def Fresh (env : Spec.Env) (key : Bytes) (s s' : Spec.State) : Prop :=
  ∀ it, s'.dict key = some it → s.tok (env.grp key) < it.cas ∧ it.cas ≤ s'.tok (env.grp key)

/-- The call changes the key. -/
def Hits (key : Bytes) (c : Spec.Call) (r : Spec.Reply) : Prop :=
  match c with
  | .store a => a.key = key ∧ (r.status = .inserted ∨ r.status = .replaced)
  | .load k _ (some f) => k = key ∧ (∀ it, f it ≠ none) ∧ r.status = .found
  | _ => False

theorem hits_fresh (hu : env.usecas = true) {key : Bytes} {c : Spec.Call} {s0 s s' : Spec.State} {r : Spec.Reply} (h0 : s0.tok (env.grp key) ≤ s.tok (env.grp key))
    (hh : Hits key c r) (h : Spec.Step env oom now c s r s') : Fresh env key s0 s' := by
  have fin : ∀ it : Spec.Item, it.cas = s.tok (env.grp key) + 1 → s'.dict key = some it → s'.tok (env.grp key) = s.tok (env.grp key) + 1 → Fresh env key s0 s' := by
    intro it h1 h2 h3 it' h4
    rw [h2] at h4
    cases h4
    rw [h3, h1]
    omega
  unfold Hits at hh
  unfold Spec.Step at h
  cases c with
  | store a =>
    simp only [] at hh
    obtain ⟨rfl, hst⟩ := hh
    simp only [hu, if_true, update_self] at h
    split at h
    · rw [h.1] at hst; simp at hst
    · rcases h with ⟨_, rfl, _⟩ | h
      · simp at hst
      · cases hg : s.dict.get now a.key with
        | none =>
          rw [hg] at h
          simp only [] at h
          split_ifs at h
          · rw [h.1] at hst; simp at hst
          · rcases h.2 with rfl | ⟨_, v, hv, rfl⟩
            · exact fin ⟨_, _, _, _⟩ rfl (update_self _ _ _) (update_self _ _ _)
            · exact fin ⟨_, _, _, _⟩ rfl (by show update _ _ _ _ = _; rw [update_of_ne (Ne.symm hv), update_self]) (update_self _ _ _)
        | some it =>
          rw [hg] at h
          simp only [] at h
          split_ifs at h
          all_goals first
            | (rw [h.1] at hst; simp at hst; done)
            | (obtain ⟨_, rfl⟩ := h; exact fin ⟨_, _, _, _⟩ rfl (update_self _ _ _) (update_self _ _ _))
  | load k nt cb =>
    cases cb with
    | none => exact absurd hh (by simp)
    | some f =>
      simp only [] at hh
      obtain ⟨rfl, hf, hst⟩ := hh
      simp only [hu, if_true, update_self] at h
      split at h
      · rw [h.1] at hst; simp at hst
      · split at h
        · rename_i hn
          exact absurd hn (hf _)
        · rcases h with ⟨_, rfl⟩ | ⟨_, rfl, _⟩
          · exact fin ⟨_, _, _, _⟩ rfl (update_self _ _ _) (update_self _ _ _)
          · simp at hst
  | _ => exact absurd hh (by simp)

/-- A result in `P` is only given after a last call that changes the key. -/
def Last {α : Type} (key : Bytes) (P : α → Prop) : Prop → Prog α → Prop
  | b, .ret a => P a → b
  | _, .call c k => ∀ r, Last key P (Hits key c r) (k r)

theorem last_fresh {α : Type} (hu : env.usecas = true) {key : Bytes} {P : α → Prop} {p : Prog α} {b : Prop} {s0 s s' : Spec.State} {a : α} (hl : Last key P b p)
    (hb : b → Fresh env key s0 s) (h0 : s0.tok (env.grp key) ≤ s.tok (env.grp key)) (hP : P a) (h : Runs env alone oom now p s a s') : Fresh env key s0 s' := by
  induction p generalizing b s with
  | ret x =>
    obtain ⟨rfl, rfl⟩ := runs_ret h
    exact hb (hl hP)
  | call c k ih =>
    obtain ⟨s1, r, s2, h1, h2, h3⟩ := runs_call h
    cases h1
    exact ih r (hl r) (fun hh => hits_fresh hu h0 hh h2) (h0.trans (step_tok h2 _)) h3

theorem last_ite {α : Type} {key : Bytes} {P : α → Prop} {b : Prop} {q : Prop} [Decidable q] {p p' : Prog α} (h : q → Last key P b p) (h' : ¬ q → Last key P b p') :
    Last key P b (if q then p else p') := by
  split
  · exact h ‹_›
  · exact h' ‹_›

end

/-! ### Replies -/

theorem u64toa_eq (n : Nat) : u64toa n = Wire.digits n := by
  unfold u64toa
  split
  · rename_i hn; rw [Wire.digits, if_pos hn]
  · exact Wire.loop_digits n

theorem spoken_line {l : Bytes} (h : Mc.Plain l) : Spoken (.line l) (l ++ [13, 10]) :=
  ⟨([], l), 1, rfl, fun rest f hf => by
    obtain ⟨g, rfl⟩ : ∃ g, f = g + 1 := ⟨f - 1, by omega⟩
    exact Mc.read_plain h rest g⟩

theorem spoken_refusal {t : Bytes} (h : Mc.Plain (Mc.clientError ++ t)) : Spoken .refusal (Mc.clientError ++ t ++ [13, 10]) :=
  ⟨([], Mc.clientError ++ t), 1, ⟨rfl, t, Or.inl rfl⟩, fun rest f hf => by
    obtain ⟨g, rfl⟩ : ∃ g, f = g + 1 := ⟨f - 1, by omega⟩
    exact Mc.read_plain h rest g⟩

theorem plain_simple {l : Bytes} (h : l ∈ [stored, notStored, exists_, notFound, deleted, touched, error]) : Mc.Plain l := by
  simp only [List.mem_cons, List.not_mem_nil, or_false] at h
  unfold Mc.Plain
  rcases h with rfl | rfl | rfl | rfl | rfl | rfl | rfl <;> decide

theorem plain_number (n : Nat) : Mc.Plain (Wire.digits n) := by
  rw [← u64toa_eq]
  have hd := digit_bytes n
  have hw : wordsOf (u64toa n) = [u64toa n] := wordsOf_last fun h => (hd _ h).1 rfl
  have hne : ∀ t : Bytes, (∃ b ∈ t, isDigit b = false) → u64toa n ≠ t := by
    rintro t ⟨b, hb, hb'⟩ h
    have := u64toa_digits n b (h ▸ hb)
    rw [hb'] at this
    cases this
  refine ⟨fun b hb => (hd b hb).2, ?_, ?_⟩
  · rw [hw, List.head?_cons, ne_eq, Option.some.injEq]
    exact hne _ ⟨86, by simp, by decide⟩
  · rw [hw, List.head?_cons, ne_eq, Option.some.injEq]
    exact hne _ ⟨83, by simp, by decide⟩

theorem plain_version {v : Bytes} (h : ∀ b ∈ v, 32 ≤ b) : Mc.Plain (versionIs ++ v) := by
  have hw : wordsOf (versionIs ++ v) = [86, 69, 82, 83, 73, 79, 78] :: wordsOf v := by
    have : versionIs ++ v = [86, 69, 82, 83, 73, 79, 78] ++ 32 :: v := rfl
    rw [this]
    exact wordsOf_word (by decide) v
  refine ⟨fun b hb => ?_, by rw [hw]; simp, by rw [hw]; simp⟩
  rcases List.mem_append.1 hb with hb | hb
  · exact (show ∀ b ∈ versionIs, b ≠ 13 by decide) b hb
  · rintro rfl
    exact absurd (h 13 hb) (by decide)

theorem value_line {gets : Bool} {k : Bytes} (hk : Mc.Key k) (it : Spec.Item) :
    valueLine gets (wordsOf (head gets k it)) = some (k, it.flags, it.value.length, if gets then some it.cas else none) := by
  have hk32 : 32 ∉ k := fun hc => by have := hk.2.2 32 hc; simp at this
  have hf := digit_bytes it.flags
  have hl := digit_bytes it.value.length
  have hc := digit_bytes it.cas
  unfold head
  rw [wordsOf_word (by decide), wordsOf_word hk32, wordsOf_word (fun h => (hf _ h).1 rfl)]
  cases gets
  · simp only [Bool.false_eq_true, if_false, List.append_nil]
    rw [wordsOf_last (fun h => (hl _ h).1 rfl)]
    simp [valueLine, natOf_u64toa]
  · simp only [if_true]
    rw [wordsOf_word (fun h => (hl _ h).1 rfl), wordsOf_last (fun h => (hc _ h).1 rfl)]
    simp [valueLine, natOf_u64toa]

theorem spoken_values (gets : Bool) {its : List (Bytes × Spec.Item)} (h : ∀ x ∈ its, Mc.Key x.1) :
    Spoken (.values gets (its.map fun x => shown gets x.1 (held x.2))) ((its.map fun x => block gets x.1 x.2).flatten ++ [69, 78, 68, 13, 10]) := by
  induction its with
  | nil =>
    refine ⟨([], [69, 78, 68]), 1, ⟨rfl, .nil⟩, fun rest f hf => ?_⟩
    obtain ⟨g, rfl⟩ : ∃ g, f = g + 1 := ⟨f - 1, by omega⟩
    exact Mc.read_plain (l := [69, 78, 68]) (by unfold Mc.Plain; decide) rest g
  | cons x its ih =>
    obtain ⟨⟨parts, l⟩, fuel, ⟨h1, h2⟩, h3⟩ := ih fun y hy => h y (by simp [hy])
    refine ⟨((head gets x.1 x.2, x.2.value) :: parts, l), fuel + 1, ⟨h1, .cons ⟨value_line (h x (by simp)) x.2, rfl⟩ h2⟩, fun rest f hf => ?_⟩
    obtain ⟨g, rfl⟩ : ∃ g, f = g + 1 := ⟨f - 1, by omega⟩
    rw [List.map_cons, List.flatten_cons, List.append_assoc, List.append_assoc, Mc.read_block (h x (by simp)), ← List.append_assoc, h3 rest g (by omega)]
    rfl

/-! ### One command -/

/-- The environment of a command: memcache, memory is not low, times of 64 bits. -/
def Fine (e : Env) : Prop := e.proto = .memcache ∧ 0 < e.now ∧ IsI64 e.now ∧ e.lowmem = false ∧ IsI64 e.unix ∧ 0 ≤ e.unix

/-- What is written is what the user has in mind, or one of the listed differences; what is known holds from `t0` on, which may be before the command. -/
def Does (grp : Bytes → Nat) (ver : Bytes) (t0 : Int) (e : Env) (m : Store) (a : Ask) (bytes : Bytes) (s' : Spec.State) : Prop :=
  ∃ m', Agrees grp t0 s' m' ∧ ((∃ r, Serves ver e.now e.unix m a r m' ∧ Spoken r bytes) ∨ Off e.now m a bytes m')

section
variable {env : Spec.Env} {t0 : Int} {e : Env} {pw : Bytes} {y : Sys} {s s' : Spec.State} {out : List W} {m : Store} {args : List Bytes}

/-- A command does so, and the connection stays open. -/
def Done (env : Spec.Env) (t0 : Int) (e : Env) (pw : Bytes) (y : Sys) (m : Store) (a : Ask) (args : List Bytes) (s : Spec.State) (out : List W) (s' : Spec.State) : Prop :=
  Executes env alone false e pw (admin y) args s out s' → W.close ∉ out ∧ Does env.grp y.version t0 e m a (Mc.written out) s'

theorem Agrees.get (h : Agrees env.grp t0 s m) (hle : t0 ≤ e.now) (k : Bytes) : m.see e.now k = (s.dict.get e.now k).map held := ((h.later hle).1 k).symm

theorem written_raw (b : Bytes) : Mc.written [.raw b] = b := by simp [Mc.written, Mc.respond, render]

theorem done_get {tokens : Bool} {ks : List Bytes} (he : Fine e) (hks : ks ≠ []) (hk : ∀ k ∈ ks, Mc.Key k) (hle : t0 ≤ e.now) (h : Agrees env.grp t0 s m) :
    Done env t0 e pw y m (.get tokens ks) (mcGetName tokens :: ks) s out s' := by
  intro hx
  have hp := he.1
  have hmem : (mcGetName tokens, Fn.cmdMGET) ∈ cmds := by cases tokens <;> decide
  rw [executes_iff spells_self hmem rfl] at hx
  have hx : Runs env alone false e.now (mgetLoop e (if tokens then .mgets else .mget) ks [] 0) s out s' := by
    cases ks with
    | nil => exact absurd rfl hks
    | cons k0 ks0 =>
      have hkind : (if argeq (mcGetName tokens) [109, 103, 101, 116, 115] then Kind.mgets else Kind.mget) = if tokens then .mgets else .mget := by
        cases tokens <;> rfl
      unfold cmdMGET at hx
      have hr : ¬ e.proto = .resp := by rw [hp]; decide
      have hq : ¬ e.proto = .postgres := by rw [hp]; decide
      simpa only [hkind, if_neg hr, if_neg hq] using hx
  obtain ⟨its, h1, rfl⟩ := mc_loop hp tokens ks [] 0 hx
  have key : ∀ {ks : List Bytes} {its : List (Option Spec.Item)} {s s' : Spec.State}, Each (fun k s it s' => alone s s' ∧ it = s'.dict.get e.now k) ks s its s' →
      s' = s ∧ its = ks.map fun k => s.dict.get e.now k := by
    intro ks its s s' hE
    induction hE with
    | nil s => exact ⟨rfl, rfl⟩
    | cons h1 _ ih =>
      obtain ⟨h1, rfl⟩ := h1
      cases h1
      obtain ⟨rfl, rfl⟩ := ih
      exact ⟨rfl, rfl⟩
  obtain ⟨rfl, rfl⟩ := key h1
  refine ⟨?_, m, h, Or.inl ⟨_, .get, ?_⟩⟩
  · simp only [List.nil_append, List.mem_append, List.mem_filterMap, List.mem_singleton, reduceCtorEq, or_false, not_exists, not_and]
    intro x _
    cases x.2 <;> simp
  · have hz : ∀ ks : List Bytes, (∀ k ∈ ks, Mc.Key k) → ∃ l : List (Bytes × Spec.Item), (∀ x ∈ l, Mc.Key x.1) ∧
        (ks.zip (ks.map fun k => s'.dict.get e.now k)).filterMap (fun x => x.2.map fun it => W.raw (block tokens x.1 it)) = l.map (fun x => W.raw (block tokens x.1 x.2)) ∧
        ks.filterMap (fun k => (m.see e.now k).map (shown tokens k)) = l.map fun x => shown tokens x.1 (held x.2) := by
      intro ks
      induction ks with
      | nil => exact fun _ => ⟨[], by simp, rfl, rfl⟩
      | cons k ks ih =>
        intro hk
        obtain ⟨l, l1, l2, l3⟩ := ih fun j hj => hk j (by simp [hj])
        have hg := h.get hle k
        cases hd : s'.dict.get e.now k with
        | none =>
          rw [hd] at hg
          refine ⟨l, l1, ?_, ?_⟩
          · simp only [List.map_cons, List.zip_cons_cons, List.filterMap_cons, hd, Option.map_none]
            exact l2
          · rw [List.filterMap_cons, hg]; exact l3
        | some it =>
          rw [hd] at hg
          refine ⟨(k, it) :: l, ?_, ?_, ?_⟩
          · intro x hx
            rcases List.mem_cons.1 hx with rfl | hx
            · exact hk k (by simp)
            · exact l1 x hx
          · simp only [List.map_cons, List.zip_cons_cons, List.filterMap_cons, hd, Option.map_some]
            rw [l2]
          · rw [List.filterMap_cons, hg]
            simp only [Option.map_some, List.map_cons]
            rw [l3]
    obtain ⟨l, l1, l2, l3⟩ := hz ks hk
    rw [l2, l3]
    have := spoken_values tokens l1
    have hw : Mc.written ([] ++ l.map (fun x => W.raw (block tokens x.1 x.2)) ++ [.raw [69, 78, 68, 13, 10]]) =
        (l.map fun x => block tokens x.1 x.2).flatten ++ [69, 78, 68, 13, 10] := by
      unfold Mc.written
      simp only [List.nil_append, List.map_append, List.map_map, List.flatten_append]
      congr 1
    rw [hw]
    exact this

theorem deadline_pos {now unix x d : Int} (h0 : 0 < now) (h : mcDeadline now unix x = some d) : 0 < d := by
  unfold mcDeadline at h
  split at h
  · simp at h
  · split at h
    · simp at h; omega
    · split at h
      · simp at h; rw [← h]; unfold fromNow lastTime; omega
      · simp at h; rw [← h]; unfold lastTime; omega

theorem held_deadline {now unix x : Int} {v : Bytes} {f k : Nat} (h0 : 0 < now) :
    held ⟨v, (mcDeadline now unix x).getD 0, f, k⟩ = ⟨v, f, mcDeadline now unix x, k⟩ := by
  unfold held
  simp only [Held.mk.injEq, true_and, and_true]
  cases hd : mcDeadline now unix x with
  | none => simp
  | some d =>
    have := deadline_pos h0 hd
    simp only [Option.getD_some]
    rw [if_neg (by omega)]

/-- The item is new and its token larger than all before. -/
theorem put_fresh (h : Agrees env.grp t0 s m) {k : Bytes} {it : Spec.Item} (hk : s'.dict k = some it) (hd : ∀ j, j ≠ k → s'.dict j = s.dict j)
    (ht : ∀ i, s.tok i ≤ s'.tok i) (hf : Fresh env k s s') : m.used k < it.cas ∧ Agrees env.grp t0 s' (m.put k (held it)) := by
  obtain ⟨h1, h2⟩ := hf it hk
  have := h.2 k
  exact ⟨by omega, h.put hk hd ht h2⟩

theorem done_store {how : How} {r : Mc.Store} {f c : Nat} {exp : Int} (hu : env.usecas = true) (he : Fine e) (hok : r.Ok f exp c) (hverb : r.verb = how.verb)
    (hc : ∀ t, how = .cas t → t = c) (hle : t0 ≤ e.now) (h : Agrees env.grp t0 s m) : Done env t0 e pw y m (.store how r.key r.data f exp) r.command s out s' := by
  intro hx
  obtain ⟨hp, h0, hnow, hlow, hunix, hu0⟩ := he
  have hv : Stores r.verb := by rw [hverb]; cases how <;> simp [Stores, How.verb]
  obtain ⟨wss, hcmd, hreads⟩ := mc_command_reads hok hv hp hnow h0 hunix hu0
  have hdl := mcOpts_deadline r e.now e.unix f exp c
  have hd : ∀ d, deadlineOf (mcOpts r e.now e.unix f exp c) = some d → 0 < d := by
    intro d hd
    rw [hdl] at hd
    exact deadline_pos h0 hd
  have hfl : FlagsOk (mcOpts r e.now e.unix f exp c) := by
    intro n hn
    rcases mcOpts_mem hn with h | ⟨_, _, h⟩ | h | h | h <;> simp at h
    rw [h]; exact hok.2.2.1
  rw [hcmd, executes_iff spells_self (by decide : (setName, Fn.cmdSET) ∈ cmds) rfl, cmdSET_opts hreads hfl hd] at hx
  have hnk : Opt.keepttl ∉ mcOpts r e.now e.unix f exp c := by
    intro hc; rcases mcOpts_mem hc with h | ⟨_, _, h⟩ | h | h | h <;> simp at h
  have hng : Opt.get ∉ mcOpts r e.now e.unix f exp c := by
    intro hc; rcases mcOpts_mem hc with h | ⟨_, _, h⟩ | h | h | h <;> simp at h
  have hc2 : ¬ ((collect (mcOpts r e.now e.unix f exp c)).xx = true ∧ (collect (mcOpts r e.now e.unix f exp c)).nx = true) := by
    rintro ⟨h1, h2⟩
    simp only [collect, decide_eq_true_eq] at h1 h2
    rcases mcOpts_mem h1 with h | ⟨_, _, h⟩ | h | h | h <;> simp at h
    rcases mcOpts_mem h2 with h' | ⟨_, _, h'⟩ | h' | h' | h' <;> simp at h'
    rw [h] at h'; simp at h'
  rw [if_neg (by simp [collect, hnk]), if_neg hc2] at hx
  have htok := runs_tok hx
  have hfresh : out = [.raw storedLine] → Fresh env r.key s s' := by
    intro ho
    refine last_fresh (key := r.key) (P := fun o => o = [.raw storedLine]) (b := False) hu ?_ False.elim (le_refl _) ho hx
    unfold execSET
    intro q hq
    refine ⟨rfl, ?_⟩
    by_contra hst
    unfold setReply at hq
    rw [if_neg (by simp [collect, hng] : ¬ (collect (mcOpts r e.now e.unix f exp c)).get = true)] at hq
    simp only [hp, if_neg hst] at hq
    split_ifs at hq
    · have := congrArg List.getLast? hq
      simp at this
    all_goals simp [storedLine] at hq
  unfold execSET at hx
  obtain ⟨s1, q, s2, h1, h2, h3⟩ := runs_call hx
  obtain ⟨h4, rfl⟩ := runs_ret h3
  cases h1
  have hg := h.get hle r.key
  have hcases : (McRefused true r.verb c (s.dict.get e.now r.key) ∧ s'.dict = s.dict ∧
        out = [.raw (if s.dict.get e.now r.key = none then notFound ++ [13, 10, 0] else exists_ ++ [13, 10])]) ∨
      (¬ McRefused true r.verb c (s.dict.get e.now r.key) ∧ out = [.raw storedLine] ∧
        ∃ k, Put r.key ⟨r.data, (mcDeadline e.now e.unix exp).getD 0, f, k⟩ s s') := by
    rcases set_step hd (fun it hit => visible_nonneg h0 hit) h2 with ⟨a1, _, _⟩ | ⟨a1, rfl, a3⟩ | ⟨a1, a2, a3, a4⟩
    · simp [hlow] at a1
    · rw [refused_mc hv, hu] at a1
      refine Or.inl ⟨a1, a3, ?_⟩
      rw [h4]
      cases hg : s.dict.get e.now r.key with
      | none => simp [setReply, hp, collect, hng, notFound]
      | some it => simp [setReply, hp, collect, hng, exists_]
    · rw [refused_mc hv, hu] at a1
      refine Or.inr ⟨a1, ?_, ?_⟩
      · rw [h4]
        unfold setReply
        rw [a3, a2]
        cases hg : s.dict.get e.now r.key with
        | none => simp [collect, hng, hp, storedLine]
        | some it => simp [collect, hng, hp, storedLine]
      · obtain ⟨k, a4⟩ := a4
        refine ⟨k, ?_⟩
        rw [mcOpts_flags] at a4
        have : newDeadline (mcOpts r e.now e.unix f exp c) (s.dict.get e.now r.key) = (mcDeadline e.now e.unix exp).getD 0 := by
          unfold newDeadline
          rw [hdl]
          cases s.dict.get e.now r.key with
          | none => rfl
          | some it => simp [hnk]
        rw [this] at a4
        rcases a4 with a4 | ⟨a4, _⟩
        · exact a4
        · rw [hlow] at a4; cases a4
  clear h2 h4 hx h3
  rcases hcases with ⟨a1, a2, rfl⟩ | ⟨a1, rfl, k, a2, a3⟩
  · have hag : Agrees env.grp t0 s' m := h.same a2 htok
    refine ⟨by simp, m, hag, ?_⟩
    rw [written_raw]
    cases hd' : s.dict.get e.now r.key with
    | none =>
      rw [hd'] at hg a1
      rw [if_pos rfl]
      right
      cases how with
      | set => rw [hverb] at a1; exact a1.elim
      | add => rw [hverb] at a1; exact absurd rfl a1
      | replace => exact .replace hg
      | cas t => exact .cas hg
    | some it =>
      rw [hd'] at hg a1
      rw [if_neg (by simp)]
      cases how with
      | set => rw [hverb] at a1; exact a1.elim
      | add => exact Or.inr (.add (by rw [hg]; simp))
      | replace => rw [hverb] at a1; cases a1
      | cas t =>
        rw [hverb] at a1
        have ht := hc t rfl
        subst ht
        left
        refine ⟨_, .casOther hg ?_, spoken_line (plain_simple (by simp))⟩
        rcases a1 it rfl with a1 | a1
        · cases a1
        · exact a1
  · obtain ⟨b1, b2⟩ := put_fresh h a2 a3 htok (hfresh rfl)
    rw [held_deadline h0] at b2
    refine ⟨by simp, _, b2, Or.inl ⟨.line stored, ?_, ?_⟩⟩
    · cases how with
      | set => exact .set b1
      | add =>
        refine .add ?_ b1
        rw [hg]
        rw [hverb] at a1
        by_contra hc
        exact a1 (by intro hn; rw [hn] at hc; exact hc rfl)
      | replace =>
        refine .replace ?_ b1
        rw [hg]
        rw [hverb] at a1
        intro hc
        exact a1 (Option.map_eq_none_iff.1 hc)
      | cas t =>
        have ht := hc t rfl
        subst ht
        rw [hverb] at a1
        cases hd' : s.dict.get e.now r.key with
        | none =>
          rw [hd'] at a1
          exact absurd (fun it hit => by cases hit) a1
        | some it =>
          rw [hd'] at hg a1
          refine .cas hg ?_ b1
          by_contra hc
          exact a1 fun it' hit => by cases hit; exact Or.inr hc
    · rw [written_raw]
      exact spoken_line (plain_simple (by simp))

theorem same_dict {k : Bytes} (hfr : ∀ j, j ≠ k → s'.dict j = s.dict j) (hs : Same env k s s') : s'.dict = s.dict := by
  funext j
  by_cases hj : j = k
  · subst hj; exact hs j rfl
  · exact hfr j hj

theorem last_append {w k v : Bytes} (hp : e.proto = .memcache) : Last k (fun o => o = [.raw storedLine]) False (cmdAPPEND e [w, k, v]) := by
  unfold cmdAPPEND
  intro r
  have hfin : ∀ (len : Nat) (u : Bytes) (x : Int) (cas fl : Nat) (r : Spec.Reply), Last k (fun o : List W => o = [.raw storedLine])
      (Hits k (plain k u x cas fl) r)
      (if r.status = .nomem then .ret [.err .outOfMemory]
      else if r.status = .inserted ∨ r.status = .replaced then
        .ret (if e.proto = .memcache then [.raw [83, 84, 79, 82, 69, 68, 13, 10]]
          else if e.proto = .postgres then
            pgEnd ((if argeq w [112, 114, 101, 112, 101, 110, 100] then [80, 82, 69, 80, 69, 78, 68, 32] else [65, 80, 80, 69, 78, 68, 32]) ++ u64toa len)
          else [.int len])
      else .ret [.failed]) := by
    intro len u x cas fl r
    refine last_ite (fun _ hq => by simp at hq) fun _ => last_ite (fun h _ => ⟨rfl, h⟩) fun _ hq => by simp at hq
  rw [if_pos hp]
  refine last_ite (fun _ hq => ?_) fun _ => last_ite (fun _ hq => by simp at hq) fun _ => fun r => hfin _ _ _ _ _ r
  simp [storedLine] at hq

theorem done_join {front : Bool} {k v : Bytes} (hu : env.usecas = true) (he : Fine e) (hle : t0 ≤ e.now) (h : Agrees env.grp t0 s m) :
    Done env t0 e pw y m (.join front k v) [appendName front, k, v] s out s' := by
  intro hx
  obtain ⟨hp, h0, hnow, hlow, hunix, hu0⟩ := he
  have hrun := Wire.executes_append spells_self hx
  have hfr := Wire.onlyAt_frame Wire.onlyAt_append hrun
  have htok := runs_tok hrun
  have hfresh : out = [.raw storedLine] → Fresh env k s s' := fun ho => last_fresh hu (last_append hp) False.elim (le_refl _) ho hrun
  obtain ⟨h1, h2⟩ := append_exact spells_self (Or.inr hp) h0 (hx.mono (alone_held env k))
  have hg := h.get hle k
  cases hd : s.dict.get e.now k with
  | none =>
    rw [hd] at hg
    obtain ⟨rfl, h3⟩ := (h2 hd).1 hp
    refine ⟨by simp, m, h.same (same_dict hfr h3) htok, Or.inl ⟨_, .joinMissing hg, ?_⟩⟩
    rw [written_raw]
    exact spoken_line (l := notStored) (plain_simple (by simp))
  | some it =>
    rw [hd] at hg
    obtain ⟨h3, h4⟩ := h1 it hd
    have hlen : (joinedValue front it.value v).length = v.length + (held it).value.length := by
      unfold joinedValue held
      cases front <;> simp [Nat.add_comm]
    rw [hlen] at h3 h4
    by_cases hl : v.length + (held it).value.length ≤ Wire.longest
    · rcases h4 hl with ⟨rfl, c, h5, _⟩ | ⟨hc, _⟩
      · have hs : storedReply e.proto (v.length + (held it).value.length) = .raw storedLine := by
          unfold storedReply
          rw [if_pos hp]; rfl
        rw [hs] at hfresh ⊢
        obtain ⟨b1, b2⟩ := put_fresh h h5 hfr htok (hfresh rfl)
        refine ⟨by simp, _, b2, Or.inl ⟨_, .join hg hl b1, ?_⟩⟩
        rw [written_raw]
        exact spoken_line (l := stored) (plain_simple (by simp))
      · cases hc
    · obtain ⟨rfl, h5⟩ := h3 (by unfold Wire.longest at hl; omega)
      refine ⟨by simp, m, h.same (same_dict hfr h5) htok, Or.inl ⟨_, .joinTooLong hg (by omega), ?_⟩⟩
      have : Mc.written [.err .tooLarge] = Mc.clientError ++ [118, 97, 108, 117, 101, 32, 116, 111, 111, 32, 108, 97, 114, 103, 101] ++ [13, 10] := by decide
      rw [this]
      exact spoken_refusal (by unfold Mc.Plain; decide)

theorem done_delete {k : Bytes} (he : Fine e) (hle : t0 ≤ e.now) (h : Agrees env.grp t0 s m) : Done env t0 e pw y m (.delete k) [delName, k] s out s' := by
  intro hx
  have hp := he.1
  rw [executes_iff spells_self (by decide : (delName, Fn.cmdDEL) ∈ cmds) rfl] at hx
  have htok := runs_tok hx
  have hg := h.get hle k
  unfold cmdDEL Cmd.delLoop Cmd.delLoop at hx
  obtain ⟨s1, r, s2, h1, h2, h3⟩ := runs_call hx
  cases h1
  simp only [hp] at h3
  obtain ⟨h4, rfl⟩ := runs_ret h3
  unfold Spec.Step at h2
  cases hd : s.dict.get e.now k with
  | none =>
    rw [hd] at hg
    simp only [hd] at h2
    obtain ⟨rfl, rfl⟩ := h2
    refine ⟨by rw [h4]; simp, m, h, Or.inl ⟨_, .deleteMissing hg, ?_⟩⟩
    rw [h4]
    simp only [reduceCtorEq, if_false, if_true, written_raw]
    exact spoken_line (l := notFound) (plain_simple (by simp))
  | some it =>
    rw [hd] at hg
    simp only [hd] at h2
    obtain ⟨rfl, rfl⟩ := h2
    refine ⟨by rw [h4]; simp, m.drop k, h.drop (update_self _ _ _) (fun j hj => update_of_ne hj _ _) htok, Or.inl ⟨_, .delete (by rw [hg]; simp), ?_⟩⟩
    rw [h4]
    simp only [if_true, Nat.zero_add, Nat.one_ne_zero, if_false, written_raw]
    exact spoken_line (l := deleted) (plain_simple (by simp))

theorem last_touch {w k t : Bytes} (hp : e.proto = .memcache) : Last k (fun o => o = [.raw touchedLine]) False (cmdEXPIRE e [w, k, t]) := by
  unfold cmdEXPIRE
  simp only []
  split
  · intro hq; simp at hq
  · split
    · intro hq; simp at hq
    · intro r
      beta_reduce
      rw [if_pos hp]
      intro hq
      refine ⟨rfl, fun it => by simp, ?_⟩
      by_contra hst
      simp [hst, touchedLine] at hq

theorem done_touch {k t : Bytes} {secs : Int} (hu : env.usecas = true) (he : Fine e) (ht : Mc.ExpText t secs) (h0s : 0 < secs) (h30 : secs ≤ 30 * 24 * 60 * 60)
    (hle : t0 ≤ e.now) (h : Agrees env.grp t0 s m) : Done env t0 e pw y m (.touch k secs) [expireName, k, t] s out s' := by
  intro hx
  obtain ⟨hp, h0, hnow, hlow, hunix, hu0⟩ := he
  have hrun := (executes_iff spells_self (by decide : (expireName, Fn.cmdEXPIRE) ∈ cmds) rfl).1 hx
  have htok := runs_tok hrun
  have hfresh : out = [.raw touchedLine] → Fresh env k s s' := fun ho => last_fresh hu (last_touch hp) False.elim (le_refl _) ho hrun
  obtain ⟨s1, d, h1, h2, h3, h4⟩ := mc_touch_exact_partial hp hnow h0 ht h0s (by omega) hx
  cases h1
  have hg := h.get hle k
  cases hd : s.dict.get e.now k with
  | none =>
    rw [hd] at hg
    obtain ⟨rfl, rfl⟩ := h3 hd
    refine ⟨by simp, m, h, Or.inl ⟨_, .touchMissing hg, ?_⟩⟩
    rw [written_raw]
    exact spoken_line (l := notFound) (plain_simple (by simp))
  | some it =>
    rw [hd] at hg
    rcases h4 it hd with ⟨rfl, c, h5, h6⟩ | ⟨hc, _⟩
    · obtain ⟨b1, b2⟩ := put_fresh h h5 h6 htok (hfresh rfl)
      have hh : held ⟨it.value, d, it.flags, c⟩ = ⟨(held it).value, (held it).flags, mcDeadline e.now e.unix secs, c⟩ := by
        have := held_deadline (unix := e.unix) (x := secs) (v := it.value) (f := it.flags) (k := c) h0
        rw [h2] at this ⊢
        exact this
      rw [hh] at b2
      refine ⟨by simp, _, b2, Or.inl ⟨_, .touch hg b1, ?_⟩⟩
      rw [written_raw]
      exact spoken_line (l := touched) (plain_simple (by simp))
    · cases hc

theorem strange_of {t : Bytes} {v : Nat} (h : parseU64 t = some v) (hn : ¬ ∃ n, Counter t n) : Strange t := by
  by_contra hs
  unfold Strange at hs
  push_neg at hs
  obtain ⟨h1, h2, h3⟩ := hs
  rw [parseU64_exact_partial t v (fun b hb hm => h2 b hb (by
    simp only [List.mem_cons, List.not_mem_nil, or_false] at hm ⊢
    tauto))] at h
  rcases h with ⟨rfl, _⟩ | ⟨hl, ⟨ws, sg, ds, rfl, hws, hds, hdig, hv⟩, hm, hlt⟩
  · exact h1 rfl
  · have hw : ws = [] := by
      cases ws with
      | nil => rfl
      | cons b ws =>
        exfalso
        refine h2 b (by simp) ?_
        have := hws b (by simp)
        simp only [List.mem_cons, List.not_mem_nil, or_false] at this ⊢
        tauto
    subst hw
    rw [List.nil_append] at *
    rcases hv with ⟨hsg | hsg, hv⟩ | ⟨hsg, _⟩
    · subst hsg
      rw [List.nil_append] at *
      exact hn ⟨v, ⟨hds, by omega, hdig, by exact_mod_cast hv.symm⟩, hlt⟩
    · subst hsg
      exact h2 43 rfl (by simp)
    · subst hsg
      exact h2 45 rfl (by simp)

theorem last_incr {cmd k : Bytes} {d : Int} {decr uns : Bool} (hp : e.proto = .memcache) :
    Last k (fun o => ∃ t, o = [.raw t, .raw [13, 10]]) False (execIncr e cmd k d decr uns) := by
  unfold execIncr
  intro r
  simp only []
  split
  · rw [if_pos hp]
    intro hq; simp at hq
  · refine last_ite (fun _ hq => by simp at hq) fun _ => last_ite (fun _ hq => by simp at hq) fun _ => ?_
    intro r
    exact last_ite (fun _ hq => by simp at hq) fun _ => last_ite (fun hst _ => ⟨rfl, hst⟩) fun _ hq => by simp at hq

theorem done_count {down : Bool} {k t : Bytes} {d : Nat} (hu : env.usecas = true) (he : Fine e) (ht : Mc.NatText t d) (hd64 : d < 2 ^ 64)
    (hle : t0 ≤ e.now) (h : Agrees env.grp t0 s m) : Done env t0 e pw y m (.count down k d) [incrName down true true, k, t] s out s' := by
  intro hx
  obtain ⟨hp, h0, hnow, hlow, hunix, hu0⟩ := he
  have hpar : parse64 true t = some (d : Int) := by
    unfold parse64
    rw [if_pos rfl, ht.u64 hd64]; rfl
  rcases incr_runs ⟨_, Or.inl ⟨rfl, spells_self⟩⟩ hx with ⟨h1, _, _⟩ | ⟨δ, cmd, h1, h2⟩
  · rw [h1] at hpar; cases hpar
  · rw [h1, Option.some.injEq] at hpar
    subst hpar
    have hfr := Wire.onlyAt_frame Wire.onlyAt_incr h2
    have htok := runs_tok h2
    have hfresh : (∃ t, out = [.raw t, .raw [13, 10]]) → Fresh env k s s' := fun ho => last_fresh hu (last_incr hp) False.elim (le_refl _) ho h2
    have hg := h.get hle k
    rcases execIncr_cases h0 (h2.mono (alone_held env k)) with ⟨⟨it, b1, b2⟩, b3, rfl⟩ | ⟨b1, _, b3, rfl⟩ | ⟨b0, x, b1, b2⟩
    · rw [b1] at hg
      rw [if_pos hp]
      refine ⟨by simp, m, h.same (same_dict hfr b3) htok, Or.inl ⟨_, .countNot hg ?_, ?_⟩⟩
      · rintro ⟨n, hn, hn2⟩
        have hv : (held it).value = it.value := rfl
        unfold parse64 at b2
        rw [if_pos rfl, ← hv, hn.u64 hn2] at b2
        cases b2
      · rw [written_raw]
        exact spoken_refusal (t := nonNumericValue.drop 13 |>.dropLast |>.dropLast) (by unfold Mc.Plain; decide)
    · rw [b1] at hg
      refine ⟨by simp, m, h.same (same_dict hfr b3) htok, Or.inl ⟨_, .countMissing hg, ?_⟩⟩
      rw [written_raw]
      exact spoken_line (l := notFound) (plain_simple (by simp))
    · rcases b1 with ⟨b1, _⟩ | ⟨it, b1, b3⟩
      · exact absurd hp (b0 b1)
      · rw [b1] at hg
        rcases b2 with ⟨_, hc, _⟩ | ⟨_, ⟨hc, _⟩ | ⟨rfl, c, b5, _⟩⟩
        · exact absurd hp hc
        · cases hc
        · rw [if_pos hp] at hfresh ⊢
          obtain ⟨v, hv1, hv2⟩ : ∃ v, parseU64 it.value = some v ∧ x = (v : Int) := by
            unfold parse64 at b3
            rw [if_pos rfl, Option.map_eq_some_iff] at b3
            obtain ⟨v, hv, rfl⟩ := b3
            exact ⟨v, hv, rfl⟩
          subst hv2
          obtain ⟨c1, c2⟩ := put_fresh h b5 hfr htok (hfresh ⟨_, rfl⟩)
          rw [b1] at c2
          have hheld : ∀ (z : Bytes) (c : Nat), held ⟨z, (Option.map (fun x : Spec.Item => x.expires) (some it)).getD 0,
              (Option.map (fun x : Spec.Item => x.flags) (some it)).getD 0, c⟩ = ⟨z, (held it).flags, (held it).upto, c⟩ := fun z c => rfl
          rw [hheld] at c2
          have htext : text64 true (wrap true (result down v d)) = Wire.digits ((result down v d) % 2 ^ 64).toNat := by
            unfold text64 wrap
            rw [if_pos rfl, if_pos rfl, u64toa_eq]
          rw [htext] at c2 ⊢
          have hw : ∀ z : Bytes, Mc.written [.raw z, .raw [13, 10]] = z ++ [13, 10] := by
            intro z; simp [Mc.written, Mc.respond, render]
          rw [hw]
          refine ⟨by simp, _, c2, ?_⟩
          by_cases hcnt : ∃ n, Counter (held it).value n
          · obtain ⟨n, hn, hn2⟩ := hcnt
            have hvn : v = n := by
              have := hn.u64 hn2
              have hv : (held it).value = it.value := rfl
              rw [hv, hv1] at this
              simpa using this
            subst hvn
            cases down with
            | false =>
              have : ((result false (v : Int) (d : Int)) % 2 ^ 64).toNat = (v + d) % 2 ^ 64 := by
                unfold result
                simp only [Bool.false_eq_true, if_false]
                omega
              rw [this] at c2 ⊢
              exact Or.inl ⟨_, .up hg ⟨hn, hn2⟩ c1, spoken_line (plain_number _)⟩
            | true =>
              by_cases hdv : d ≤ v
              · have : ((result true (v : Int) (d : Int)) % 2 ^ 64).toNat = v - d := by
                  unfold result
                  simp only [if_true]
                  omega
                rw [this] at c2 ⊢
                exact Or.inl ⟨_, .down hg ⟨hn, hn2⟩ c1, spoken_line (plain_number _)⟩
              · have : ((result true (v : Int) (d : Int)) % 2 ^ 64).toNat = 2 ^ 64 + v - d := by
                  unfold result
                  simp only [if_true]
                  omega
                rw [this] at c2 ⊢
                exact Or.inr (.below hg ⟨hn, hn2⟩ (by omega) hd64 c1)
          · exact Or.inr (.odd hg hcnt (strange_of hv1 hcnt) (by omega) c1)

theorem done_version (he : Fine e) (hver : ∀ b ∈ y.version, 32 ≤ b) (hle : t0 ≤ e.now) (h : Agrees env.grp t0 s m) :
    Done env t0 e pw y m .version [[118, 101, 114, 115, 105, 111, 110]] s out s' := by
  intro hx
  rw [executes_iff spells_self (by decide : (([118, 101, 114, 115, 105, 111, 110] : Bytes), Fn.cmdVERSION) ∈ cmds) (p := cmdVERSION y e) rfl] at hx
  unfold cmdVERSION at hx
  obtain ⟨h1, rfl⟩ := runs_ret hx
  rw [if_pos he.1] at h1
  subst h1
  refine ⟨by simp, m, h, Or.inl ⟨_, .version, ?_⟩⟩
  have : Mc.written [.raw [86, 69, 82, 83, 73, 79, 78, 32], .raw y.version, .raw [13, 10]] = versionIs ++ y.version ++ [13, 10] := by
    simp [Mc.written, Mc.respond, render, versionIs]
  rw [this]
  exact spoken_line (plain_version hver)

end

end Verif.McWire
