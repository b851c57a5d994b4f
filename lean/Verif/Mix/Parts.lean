import Mathlib.Tactic.Common
import Verif.Mix.Model
import Verif.Many.Parts
import Verif.McWire.Conn

/-!
C106: commands are served part by part.
-/

namespace Verif.Mix

open Verif.Num Verif.Resp Verif.Cmd Verif.Cache Verif.Shard Verif.Map Function
open Verif.Many (Neat Atomic Single Goods cut One one_ret one_call one_set one_expire neat_append neat_incr neat_ret neat_last neat_cut cut_runs batched_of)

/-! ### What is kept -/

/-- The store is what the dictionary shows from `t0` on, with values and times that can be sent. -/
def Agr (grp : Bytes → Nat) (t0 : Int) (s : Spec.State) (m : Store) : Prop :=
  McWire.Agrees grp t0 s m ∧ ∀ k x, m.see t0 k = some x → Wire.Fit (plainOf x)

theorem plain_see (m : Store) (now : Int) (k : Bytes) : Wire.Store.see (plain m) now k = (m.see now k).map plainOf := by
  unfold Wire.Store.see McWire.Store.see plain
  cases m.has k with
  | none => rfl
  | some x =>
    simp only [Option.map_some, Option.filter_some]
    have : (plainOf x).upto = x.upto := rfl
    rw [this]
    split <;> rfl

theorem Agr.plain {grp : Bytes → Nat} {t0 : Int} {s : Spec.State} {m : Store} (h : Agr grp t0 s m) : Wire.Agrees t0 s.dict (plain m) := by
  refine ⟨fun k => ?_, fun k x hx => ?_⟩
  · rw [Wire.see_get, plain_see, ← h.1.1 k, Option.map_map]
    rfl
  · rw [plain_see, Option.map_eq_some_iff] at hx
    obtain ⟨x', h1, rfl⟩ := hx
    exact h.2 k x' h1

theorem Agr.later {grp : Bytes → Nat} {t0 t : Int} {s : Spec.State} {m : Store} (h : Agr grp t0 s m) (hle : t0 ≤ t) : Agr grp t s m := by
  refine ⟨h.1.later hle, fun k x hx => ?_⟩
  rw [McWire.see_later hle, Option.filter_eq_some_iff] at hx
  exact h.2 k x hx.1

theorem see_earlier {m : Store} {t0 now : Int} (hle : t0 ≤ now) {k : Bytes} {x : McWire.Held} (h : m.see now k = some x) : m.see t0 k = some x := by
  rw [McWire.see_later hle, Option.filter_eq_some_iff] at h
  exact h.1

/-- Nothing is kept that had expired at `t0`. -/
def Live (t0 : Int) (s : Spec.State) : Prop := ∀ k, s.dict.get t0 k = s.dict k

/-- Without what had expired. -/
def live (t0 : Int) (s : Spec.State) : Spec.State := ⟨fun k => s.dict.get t0 k, s.tok⟩

theorem get_get (d : Spec.Dict) (t0 : Int) (k : Bytes) {t : Int} (hle : t0 ≤ t) : Spec.Dict.get (fun k => d.get t0 k) t k = d.get t k := by
  show ((d k).filter (·.visible t0)).filter (·.visible t) = (d k).filter (·.visible t)
  cases d k with
  | none => rfl
  | some it =>
    by_cases h : it.visible t0 = true
    · rw [Option.filter_some, if_pos h]
    · have h2 : ¬ it.visible t = true := by
        unfold Spec.Item.visible at h ⊢
        simp only [Bool.or_eq_true, decide_eq_true_eq] at h ⊢
        omega
      rw [Option.filter_some, if_neg h, Option.filter_some, if_neg h2]
      rfl

theorem live_live (t0 : Int) (s : Spec.State) : Live t0 (live t0 s) := fun k => get_get s.dict t0 k (Int.le_refl _)

theorem Agr.live {grp : Bytes → Nat} {t0 : Int} {s : Spec.State} {m : Store} (h : Agr grp t0 s m) : Agr grp t0 (live t0 s) m :=
  ⟨⟨fun k => by unfold Mix.live; rw [get_get _ _ _ (Int.le_refl _)]; exact h.1.1 k, h.1.2⟩, h.2⟩

theorem live_R {c : Ctx} {n : Nat} {t0 : Int} {shs : Shards} {s : Spec.State} (h : R c n t0 shs s) : R c n t0 shs (live t0 s) := by
  intro i hi
  obtain ⟨p, h1, h2, h3⟩ := h i hi
  refine ⟨p, h1, h2, h3.1, fun k hk t ht => ?_⟩
  unfold live
  rw [get_get _ _ _ ht]
  exact h3.2 k hk t ht

/-- Without the key, if that has expired. -/
def dropped (now : Int) (k : Bytes) (m : Store) : Store := ⟨update m.has k (m.see now k), m.used⟩

theorem dropped_drops (now : Int) {k : Bytes} {ks : List Bytes} (hk : k ∈ ks) (m : Store) : Drops now ks m (dropped now k m) := by
  refine ⟨rfl, fun j => ?_⟩
  by_cases hj : j = k
  · subst hj
    unfold dropped
    simp only [update_self]
    cases h : m.see now j with
    | none => exact Or.inr ⟨hk, rfl, rfl⟩
    | some x =>
      left
      unfold McWire.Store.see at h
      rw [Option.filter_eq_some_iff] at h
      exact h.1.symm
  · left
    unfold dropped
    simp only [update_of_ne hj]

theorem drops_refl (now : Int) (ks : List Bytes) (m : Store) : Drops now ks m m := ⟨rfl, fun _ => Or.inl rfl⟩

theorem see_dropped {m : Store} {t0 now : Int} (h : t0 ≤ now) (k : Bytes) : (dropped now k m).see t0 k = m.see now k := by
  cases hm : m.see now k with
  | none => unfold McWire.Store.see dropped; simp only [update_self, hm]; rfl
  | some x =>
    have h1 := see_earlier h hm
    unfold McWire.Store.see at h1
    rw [Option.filter_eq_some_iff] at h1
    unfold McWire.Store.see dropped
    simp only [update_self, hm, Option.filter_some, if_pos h1.2]

theorem get_forget {st : Spec.State} {t0 now : Int} (h : t0 ≤ now) (k : Bytes) : (forget now k st).dict.get t0 k = st.dict.get now k := by
  unfold forget Spec.Dict.get
  simp only [update_self]
  cases st.dict k with
  | none => rfl
  | some it =>
    simp only [Option.filter_some]
    split
    · rename_i hv
      rw [Option.filter_some, if_pos]
      unfold Spec.Item.visible at hv ⊢
      simp only [Bool.or_eq_true, decide_eq_true_eq] at hv ⊢
      omega
    · rfl

theorem Agr.forget {grp : Bytes → Nat} {t0 now : Int} {st : Spec.State} {m : Store} (h : Agr grp t0 st m) (hle : t0 ≤ now) (k : Bytes) :
    Agr grp t0 (forget now k st) (dropped now k m) := by
  have hother : ∀ j, j ≠ k → (dropped now k m).see t0 j = m.see t0 j := by
    intro j hj
    exact McWire.see_congr (by unfold dropped; simp only [update_of_ne hj])
  refine ⟨⟨fun j => ?_, fun j => h.1.2 j⟩, fun j x hx => ?_⟩
  · by_cases hj : j = k
    · subst hj
      rw [see_dropped hle, get_forget hle]
      exact (h.1.later hle).1 j
    · rw [hother j hj, ← h.1.1 j]
      congr 1
      unfold Cache.forget Spec.Dict.get
      simp only [update_of_ne hj]
  · by_cases hj : j = k
    · subst hj
      rw [see_dropped hle] at hx
      exact (h.later hle).2 j x hx
    · rw [hother j hj] at hx
      exact h.2 j x hx

theorem live_forget {t0 now : Int} {s : Spec.State} (h : Live t0 s) (hle : t0 ≤ now) (k : Bytes) : Live t0 (forget now k s) := by
  intro j
  by_cases hj : j = k
  · subst hj
    rw [get_forget hle]
    unfold forget
    simp only [update_self]
  · have := h j
    unfold forget Spec.Dict.get at *
    simp only [update_of_ne hj]
    exact this

theorem before_agr {grp : Bytes → Nat} {t0 now : Int} {st : Spec.State} {m : Store} (h : Agr grp t0 st m) (hle : t0 ≤ now) {own : Bool} {α : Type} {P : Prog α} {key : Bytes}
    {ks : List Bytes} (hk : key ∈ ks ∨ (ks = [] ∧ ∃ x, P = .ret x))
    (hl : Live t0 st) :
    ∃ m', Drops now ks m m' ∧ Agr grp t0 (Many.before now key st (cut own P)) m' ∧ Live t0 (Many.before now key st (cut own P)) ∧
      ((∃ op k, P = .call op k) → (Many.before now key st (cut own P)).dict key = (Many.before now key st (cut own P)).dict.get now key) := by
  cases P with
  | ret x =>
    refine ⟨m, drops_refl _ _ _, ?_, ?_, fun hc => ?_⟩
    · cases own <;> exact h
    · cases own <;> exact hl
    · obtain ⟨_, _, hc⟩ := hc; cases hc
  | call op k =>
    have hk : key ∈ ks := by
      rcases hk with hk | ⟨_, _, hk⟩
      · exact hk
      · cases hk
    have e : Many.before now key st (cut own (.call op k)) = Cache.forget now key st := by cases own <;> rfl
    rw [e]
    exact ⟨_, dropped_drops now hk m, h.forget hle key, live_forget hl hle key, fun _ => by rw [forget_get]; exact update_self ..⟩

/-! ### Tokens -/

section
variable {env : Spec.Env} {oom : Bool} {now : Int}

/-- A call changes a key only with a new token. -/
theorem step_fresh (hu : env.usecas = true) {c : Spec.Call} {s s' : Spec.State} {r : Spec.Reply} (h : Spec.Step env oom now c s r s') {k : Bytes} {it : Spec.Item}
    (hk : s'.dict k = some it) : s.dict k = some it ∨ (s.tok (env.grp k) < it.cas ∧ it.cas ≤ s'.tok (env.grp k)) := by
  have put : ∀ {key : Bytes} {new : Spec.Item}, new.cas = s.tok (env.grp key) + 1 → s' = ⟨update s.dict key (some new), update s.tok (env.grp key) (s.tok (env.grp key) + 1)⟩ →
      s.dict k = some it ∨ (s.tok (env.grp k) < it.cas ∧ it.cas ≤ s'.tok (env.grp k)) := by
    intro key new hnew hs
    subst hs
    by_cases hj : k = key
    · subst hj
      simp only [update_self, Option.some.injEq] at hk
      subst hk
      right
      simp only [update_self]
      omega
    · simp only [update_of_ne hj] at hk
      exact Or.inl hk
  have same : s'.dict = s.dict → s.dict k = some it ∨ (s.tok (env.grp k) < it.cas ∧ it.cas ≤ s'.tok (env.grp k)) := fun hd => Or.inl (hd ▸ hk)
  unfold Spec.Step at h
  cases c with
  | load key nt cb =>
    simp only [hu, if_true, update_self] at h
    split at h
    · exact same (by rw [h.2])
    · split at h
      · exact same (by rw [h.2])
      · split at h
        · exact same (by rw [h.2])
        · rcases h with ⟨_, h⟩ | ⟨_, _, h⟩
          · exact put rfl h
          · exact same (by rw [h])
  | store a =>
    simp only [hu, if_true, update_self] at h
    split at h
    · exact same (by rw [h.2])
    · rcases h with ⟨_, _, h⟩ | h
      · exact same (by rw [h])
      · cases hg : s.dict.get now a.key with
        | none =>
          rw [hg] at h
          simp only [] at h
          split_ifs at h
          · exact same (by rw [h.2])
          · rcases h.2 with h | ⟨_, v, hv, rfl⟩
            · exact put rfl h
            · by_cases hkv : k = v
              · subst hkv
                simp at hk
              · simp only [update_of_ne hkv] at hk
                by_cases hj : k = a.key
                · subst hj
                  simp only [update_self, Option.some.injEq] at hk
                  subst hk
                  right
                  simp only [update_self]
                  omega
                · simp only [update_of_ne hj] at hk
                  exact Or.inl hk
        | some it' =>
          rw [hg] at h
          simp only [] at h
          split_ifs at h
          all_goals first
            | exact put rfl h.2
            | exact same (by rw [h.2])
  | delete key ask =>
    have gone : s' = ⟨update s.dict key none, s.tok⟩ → s.dict k = some it := by
      rintro rfl
      by_cases hj : k = key
      · subst hj; simp at hk
      · simpa [update_of_ne hj] using hk
    simp only [] at h
    split at h
    · exact same (by rw [h.2])
    · split_ifs at h
      all_goals first
        | exact Or.inl (gone h.2)
        | exact same (by rw [h.2])
  | iter one cb =>
    simp only [] at h
    split at h
    · exact same (by rw [h.2])
    · rw [h.2.2.2] at hk
      simp only [] at hk
      split at hk
      · cases hk
      · exact Or.inl hk
  | sweep one => exact same (by rw [h.2])
  | clear one =>
    rw [h.2] at hk
    simp only [] at hk
    split at hk
    · cases hk
    · exact Or.inl hk

theorem runs_fresh (hu : env.usecas = true) {α : Type} {p : Prog α} {s s' : Spec.State} {a : α} (h : Runs env alone oom now p s a s') {k : Bytes} {it : Spec.Item}
    (hk : s'.dict k = some it) : s.dict k = some it ∨ (s.tok (env.grp k) < it.cas ∧ it.cas ≤ s'.tok (env.grp k)) := by
  induction h with
  | ret => exact Or.inl hk
  | @call _ _ s s1 _ _ _ _ h1 h2 h3 ih =>
    cases h1
    rcases ih hk with ih | ⟨i1, i2⟩
    · rcases step_fresh hu h2 ih with h4 | ⟨h4, h5⟩
      · exact Or.inl h4
      · exact Or.inr ⟨h4, h5.trans (McWire.runs_tok h3 _)⟩
    · exact Or.inr ⟨(McWire.step_tok h2 _).trans_lt i1, i2⟩

end

variable {env : Spec.Env} {t0 : Int} {e : Env} {pw : Bytes} {y : Sys}

/-- What a RESP command does to what memcache clients see. -/
theorem resp_part (hu : env.usecas = true) (hle : t0 ≤ e.now) {s s' : Spec.State} {m : Store} (h : Agr env.grp t0 s m) {α : Type} {p : Prog α} {a : α}
    (hr : Runs env alone false e.now p s a s') {b : Wire.Ask} {mW : Wire.Store} (hW : Wire.Agrees t0 s'.dict mW) (hM : Wire.Marked e.now b s (plain m) s' mW)
    (hk : Live t0 s) : ∃ m' : Store, plain m' = mW ∧ Kept e.now b m m' ∧ Agr env.grp t0 s' m' := by
  have htok := McWire.runs_tok hr
  have hWg : ∀ k, (s'.dict.get t0 k).map Wire.kept = mW.see t0 k := fun k => by rw [← Wire.see_get]; exact hW.1 k
  have key : ∀ k, ∃ (x : Option McWire.Held) (u : Nat), x.map plainOf = mW k ∧
      ((x = m.has k ∧ u = m.used k) ∨ (x = none ∧ u = m.used k) ∨
        ∃ z, x = some z ∧ m.used k < z.cas ∧ u = z.cas ∧ z.flags = Wire.newFlags b ((m.see e.now k).map (·.flags))) ∧
      (s'.dict.get t0 k).map McWire.held = x.filter (fun x => x.upto.all fun d => decide (t0 < d)) ∧ u ≤ s'.tok (env.grp k) := by
    intro k
    have hused := h.1.2 k
    have hsame : s'.dict k = s.dict k → mW k = plain m k → ∃ (x : Option McWire.Held) (u : Nat), x.map plainOf = mW k ∧
      ((x = m.has k ∧ u = m.used k) ∨ (x = none ∧ u = m.used k) ∨
        ∃ z, x = some z ∧ m.used k < z.cas ∧ u = z.cas ∧ z.flags = Wire.newFlags b ((m.see e.now k).map (·.flags))) ∧
      (s'.dict.get t0 k).map McWire.held = x.filter (fun x => x.upto.all fun d => decide (t0 < d)) ∧ u ≤ s'.tok (env.grp k) := by
      intro h1 h2
      refine ⟨m.has k, m.used k, h2.symm, Or.inl ⟨rfl, rfl⟩, ?_, hused.trans (htok _)⟩
      have := h.1.1 k
      unfold Spec.Dict.get at this ⊢
      rw [h1]
      exact this
    rcases hM k with ⟨h1, h2⟩ | h1 | ⟨it, h1, h2, h3⟩
    · exact hsame h1 h2
    · refine ⟨none, m.used k, h1.symm, Or.inr (Or.inl ⟨rfl, rfl⟩), ?_, hused.trans (htok _)⟩
      have := hWg k
      unfold Wire.Store.see at this
      rw [h1] at this
      have hn : s'.dict.get t0 k = none := by simpa using this
      rw [hn]
      rfl
    · rcases runs_fresh hu hr h1 with h4 | ⟨h4, h5⟩
      · refine hsame (h1.trans h4.symm) ?_
        have h6 := h.1.1 k
        rw [hk k, h4] at h6
        have h7 : m.has k = some (McWire.held it) := by
          have h8 := h6.symm
          unfold McWire.Store.see at h8
          rw [Option.map_some, Option.filter_eq_some_iff] at h8
          exact h8.1
        rw [h2]
        unfold plain
        rw [h7]
        rfl
      · refine ⟨some (McWire.held it), it.cas, by rw [h2]; rfl, Or.inr (Or.inr ⟨McWire.held it, rfl, ?_, rfl, ?_⟩), ?_, h5⟩
        · show m.used k < it.cas
          omega
        · show it.flags = _
          rw [h3, ← (h.later hle).1.1 k, Option.map_map]
          rfl
        · have := McWire.see_get (fun j => if j = k then some it else none) (fun _ => 0) t0 k
          unfold McWire.Store.see Spec.Dict.get at this
          simp only [if_true, Option.map_some] at this
          unfold Spec.Dict.get
          rw [h1]
          exact this.symm
  choose has used h1 h2 h3 h4 using key
  have hp : plain ⟨has, used⟩ = mW := funext h1
  refine ⟨⟨has, used⟩, hp, ?_, ⟨h3, h4⟩, fun k x hx => ?_⟩
  · intro k
    rcases h2 k with h | h | ⟨z, g1, g2, g3, g4⟩
    · exact Or.inl h
    · exact Or.inr (Or.inl h)
    · exact Or.inr (Or.inr ⟨z, g1, g2, g3, g4⟩)
  · refine hW.2 k (plainOf x) ?_
    rw [← hp, plain_see, hx]
    rfl

/-! ### Commands -/

/-- The rest of a command, that is still to serve the parts `bs`, and has served others with replies `ps`. -/
def Serving (env : Spec.Env) (ver : Bytes) (t0 : Int) (e : Env) (a : Ask) : List Ask → List Ans → Bool → Prog (Bytes × Bool) → Prop
  | [], _, _, _ => False
  | b :: bs, ps, own, P => ∃ key, Neat key (cut own P) ∧ (key ∈ keysOf b ∨ (keysOf b = [] ∧ ∃ x, P = .ret x)) ∧
      ∀ s m Q s', Agr env.grp t0 s m → Live t0 s → ((∃ op k, P = .call op k) → s.dict key = s.dict.get e.now key) → Runs env alone false e.now (cut own P) s Q s' →
        ∃ r m', Serves ver e.now e.unix m b r m' ∧ Agr env.grp t0 s' m' ∧
          ((bs = [] ∧ ∃ out, Q = .ret (out, false) ∧ Says (whole a (ps ++ [r])) out) ∨
          (bs ≠ [] ∧ (∃ op k, Q = .call op k) ∧ Serving env ver t0 e a bs (ps ++ [r]) own Q))

theorem cut_map {α β : Type} (f : α → β) (own : Bool) (P : Prog α) : cut own (P.map f) = (cut own P).map fun q => q.map f := by
  cases own with
  | true =>
    simp only [cut]
    induction P with
    | ret a => rfl
    | call op k ih =>
      simp only [Prog.map]
      congr 1
      funext r
      exact ih r
  | false => cases P <;> rfl

theorem replies_map (l : List Reply) : (l.map Ans.resp).filterMap Ans.reply? = l := by
  induction l with
  | nil => rfl
  | cons r l ih => simp [Ans.reply?, ih]

/-- RESP commands. -/
theorem serving_resp (hu : env.usecas = true) (hle : t0 ≤ e.now) {a : Wire.Ask} {bs : List Wire.Ask} {ps : List Reply} {own : Bool} {P : Prog (List W × ConnSt)}
    (h : Many.Serving env t0 e a bs ps own P) (ver : Bytes) :
    Serving env ver t0 e (.resp a) (bs.map .resp) (ps.map .resp) own (P.map fun r => (renderAll r.1 [], decide (W.close ∈ r.1))) := by
  induction bs generalizing ps P with
  | nil => exact h
  | cons b bs ih =>
    obtain ⟨key, h1, h2, h3⟩ := h
    rw [List.map_cons]
    refine ⟨key, ?_, ?_, ?_⟩
    · rw [cut_map]; exact h1.map
    · rcases h2 with h2 | ⟨h2, x, rfl⟩
      · exact Or.inl h2
      · exact Or.inr ⟨h2, _, rfl⟩
    · intro s m Q s' hag hlive hf hr
      rw [cut_map] at hr
      obtain ⟨Q0, g1, rfl⟩ := runs_map hr
      have hf' : (∃ op k, P = .call op k) → s.dict key = s.dict.get e.now key := by
        rintro ⟨op, k, rfl⟩
        exact hf ⟨_, _, rfl⟩
      obtain ⟨r, mW, g2, g3, g4, g5⟩ := h3 s (plain m) Q0 s' hag.plain hf' g1
      obtain ⟨m', k1, k2, k3⟩ := resp_part hu hle hag g1 g3 g4 hlive
      subst k1
      refine ⟨.resp r, m', .resp g2 k2, k3, ?_⟩
      rcases g5 with ⟨rfl, out, rfl, ⟨b', fuel, q1, q2⟩, q3⟩ | ⟨q1, ⟨op, k, rfl⟩, q2⟩
      · refine Or.inl ⟨rfl, b', ?_, fuel, ?_⟩
        · simp only [Prog.map, q1, List.nil_append, Prog.ret.injEq, Prod.mk.injEq, decide_eq_false_iff_not, true_and]
          exact q3
        · rw [List.filterMap_append, replies_map]
          exact q2
      · refine Or.inr ⟨by simpa using q1, ⟨_, _, rfl⟩, ?_⟩
        have := ih q2
        rw [List.map_append] at this
        exact this

end Verif.Mix
