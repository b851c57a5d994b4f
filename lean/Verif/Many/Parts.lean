import Mathlib.Tactic.Common
import Verif.Many.Shape

/-!
C101: commands are served part by part.
-/

namespace Verif.Many

open Verif.Num Verif.Resp Verif.Cmd Verif.Cache Verif.Shard Verif.Map Verif.Wire Function

/-- What is done before the locks are given back, and what is left then: all with a batch, one call otherwise. -/
def cut {α : Type} : Bool → Prog α → Prog (Prog α)
  | true, p => p.map .ret
  | false, .ret a => .ret (.ret a)
  | false, .call op k => .call op fun r => .ret (k r)

/-- The rest of a command, that is still to serve the parts `bs`, and has served others with replies `ps`. -/
def Serving (env : Spec.Env) (t0 : Int) (e : Env) (a : Ask) : List Ask → List Reply → Bool → Prog (List W × ConnSt) → Prop
  | [], _, _, _ => False
  | b :: bs, ps, own, P => ∃ key, Neat key (cut own P) ∧ (key ∈ keysOf b ∨ (keysOf b = [] ∧ ∃ x, P = .ret x)) ∧
      ∀ s m Q s', Agrees t0 s.dict m → ((∃ op k, P = .call op k) → s.dict key = s.dict.get e.now key) → Runs env alone false e.now (cut own P) s Q s' →
        ∃ r m', Serves e.now m b r m' ∧ Agrees t0 s'.dict m' ∧ Marked e.now b s m s' m' ∧
          ((bs = [] ∧ ∃ out, Q = .ret (out, ⟨true⟩) ∧ Sends out (whole a (ps ++ [r]))) ∨
          (bs ≠ [] ∧ (∃ op k, Q = .call op k) ∧ Serving env t0 e a bs (ps ++ [r]) own Q))

theorem whole_plain {a : Ask} (h : Plain a) (r : Reply) : whole a [r] = r := by cases a <;> first | rfl | exact absurd h id

theorem parts_plain {a : Ask} (h : Plain a) : parts a = [a] := by cases a <;> first | rfl | exact absurd h id

theorem neat_cut {own : Bool} {key : Bytes} {α : Type} {p : Prog α} (h : Atomic own key p) : Neat key (cut own p) := by
  obtain ⟨h1, h2⟩ := h
  cases own with
  | true => exact h1.map
  | false =>
    cases p with
    | ret a => exact neat_ret _ _
    | call op k => exact neat_last h1.1.1 h1.2.1.1 fun r => ⟨_, rfl⟩

theorem cut_runs {env : Spec.Env} {own : Bool} {key : Bytes} {α : Type} {p Q : Prog α} (h : Atomic own key p) {now : Int} {s s' : Spec.State}
    (hr : Runs env alone false now (cut own p) s Q s') : ∃ x, Q = .ret x ∧ Runs env alone false now p s x s' := by
  obtain ⟨h1, h2⟩ := h
  cases own with
  | true =>
    obtain ⟨x, h3, h4⟩ := runs_map hr
    exact ⟨x, h4, h3⟩
  | false =>
    cases p with
    | ret a =>
      obtain ⟨rfl, rfl⟩ := runs_ret hr
      exact ⟨a, rfl, .ret _ _⟩
    | call op k =>
      obtain ⟨s1, r, s2, g1, g2, g3⟩ := runs_call hr
      obtain ⟨g4, rfl⟩ := runs_ret g3
      rcases h2 with h2 | h2
      · cases h2
      · obtain ⟨x, hx⟩ := h2 r
        exact ⟨x, by rw [g4, hx], .call g1 g2 (hx ▸ .ret _ _)⟩

variable {env : Spec.Env} {t0 : Int} {e : Env} {pw : Bytes} {y : Sys}

/-- A command that is not on several keys is served at once. -/
theorem serving_plain {a : Ask} {args : List Bytes} (hw : Words a args) (h1 : Plain a) (he : Fine e) (hle : t0 ≤ e.now)
    (hlen : args.length ≤ 100000 ∧ ∀ x ∈ args, x.length ≤ longest) :
    Serving env t0 e a (parts a) [] (batched args) (evcommand e pw (admin y) args ⟨true⟩) := by
  obtain ⟨key, h2, h3⟩ := words_atomic hw h1 he.2.2.2 pw y
  rw [parts_plain h1]
  refine ⟨key, neat_cut h2, h3, fun s m Q s' hag _ hr => ?_⟩
  obtain ⟨⟨out, st⟩, rfl, h4⟩ := cut_runs h2 hr
  obtain ⟨p, h5, _⟩ := words_program hw e pw y
  have h6 := h4
  rw [h5] at h6
  obtain ⟨x, _, h7⟩ := runs_map h6
  simp only [Prod.mk.injEq] at h7
  obtain ⟨rfl, rfl⟩ := h7
  obtain ⟨r, m', h8, h9, h10, h11⟩ := done_words he hw hlen.1 hlen.2 hle (Or.inl (by rintro ks rfl; exact h1)) hag ⟨_, h4⟩
  exact ⟨r, m', h8, h10, h11, Or.inl ⟨rfl, _, rfl, by rw [List.nil_append, whole_plain h1]; exact h9⟩⟩

/-- A loop over keys. -/
theorem serving_loop {acc : Type} (a : Ask) (L : List Bytes → acc → Prog (List W)) (op : Bytes → Spec.Call) (part : Bytes → Ask) (next : acc → Spec.Reply → acc)
    (fin : acc → List W) (Inv : acc → List Reply → Prop) (N : Nat) (hL : ∀ k ks x, L (k :: ks) x = .call (op k) fun r => L ks (next x r)) (hL0 : ∀ x, L [] x = .ret (fin x))
    (hop : ∀ k, callKey (op k) = some k ∧ Good (op k)) (hk : ∀ k, k ∈ keysOf (part k))
    (hstep : ∀ k x ps s m r s', Inv x ps → ps.length < N → Agrees t0 s.dict m → s.dict k = s.dict.get e.now k → Spec.Step env false e.now (op k) s r s' →
      ∃ rep m', Serves e.now m (part k) rep m' ∧ Agrees t0 s'.dict m' ∧ Marked e.now (part k) s m s' m' ∧ Inv (next x r) (ps ++ [rep]))
    (hfin : ∀ x ps, Inv x ps → ps.length = N → Sends (fin x) (whole a ps)) (ks : List Bytes) (hks : ks ≠ []) (x : acc) (ps : List Reply) (hi : Inv x ps)
    (hN : ps.length + ks.length = N) : Serving env t0 e a (ks.map part) ps false ((L ks x).map (·, ⟨true⟩)) := by
  induction ks generalizing x ps with
  | nil => exact absurd rfl hks
  | cons k ks ih =>
    rw [hL]
    refine ⟨k, neat_last (hop k).1 (hop k).2 fun r => ⟨_, rfl⟩, Or.inl (hk k), fun s m Q s' hag hf hr => ?_⟩
    obtain ⟨s1, r, s2, g1, g2, g3⟩ := runs_call hr
    cases g1
    obtain ⟨rfl, rfl⟩ := runs_ret g3
    simp only [List.length_cons] at hN
    obtain ⟨rep, m', k1, k2, km, k3⟩ := hstep k x ps s m r s' hi (by omega) hag (hf ⟨_, _, rfl⟩) g2
    refine ⟨rep, m', k1, k2, km, ?_⟩
    cases ks with
    | nil =>
      left
      refine ⟨rfl, fin (next x r), ?_, hfin _ _ k3 (by simpa using hN)⟩
      beta_reduce
      rw [hL0]
      rfl
    | cons k' ks =>
      right
      refine ⟨by simp, ⟨op k', fun r' => (L ks (next (next x r) r')).map (·, ⟨true⟩), ?_⟩, ?_⟩
      · beta_reduce
        rw [hL]
        rfl
      · exact ih (by simp) _ _ k3 (by simp at hN ⊢; omega)

/-- Written as this reply. -/
def Shows (w : W) (r : Reply) : Prop := w ≠ .close ∧ ∃ v : Val, v.Ok ∧ (∀ buf, render buf w = v.write buf) ∧ v.reply = r

theorem sends_array {ws : List W} {rs : List Reply} (h : List.Forall₂ Shows ws rs) (hl : rs.length < 2 ^ 64) : Sends (.arr rs.length :: ws) (.array rs) := by
  have key : ∃ vs : List Val, Val.AllOk vs ∧ (∀ buf, renderAll ws buf = Val.writeAll buf vs) ∧ Val.replies vs = rs ∧ vs.length = rs.length ∧ W.close ∉ ws := by
    clear hl
    induction h with
    | nil => exact ⟨[], trivial, fun _ => rfl, rfl, rfl, by simp⟩
    | @cons w r ws rs h1 _ ih =>
      obtain ⟨h2, v, h3, h4, h5⟩ := h1
      obtain ⟨vs, i1, i2, i3, i4, i5⟩ := ih
      refine ⟨v :: vs, ⟨h3, i1⟩, fun buf => ?_, by simp only [Val.replies, h5, i3], by simp [i4], ?_⟩
      · simp only [Val.writeAll]
        rw [← h4, ← i2]
        rfl
      · simp only [List.mem_cons, not_or]
        exact ⟨h2.symm, i5⟩
  obtain ⟨vs, i1, i2, i3, i4, i5⟩ := key
  refine ⟨?_, by simpa using i5⟩
  have := answers_val (out := .arr rs.length :: ws) (.array vs) ⟨by rw [i4]; exact hl, i1⟩ (fun buf => by
    simp only [Val.write, i4]
    rw [← i2]; rfl)
  rw [Val.reply, i3] at this
  exact this

theorem total_snoc (rs : List Reply) (n : Int) : total (rs ++ [.int n]) = total rs + n := by
  induction rs with
  | nil => simp [total]
  | cons r rs ih => cases r <;> simp only [List.cons_append, total, ih, Int.add_assoc]

theorem shows_value {d : Spec.Dict} {now : Int} {m : Store} (h : Agrees now d m) (k : Bytes) : Shows (valueOrNull d now k) (asReply (m.see now k)) :=
  ⟨(valueOrNull_close d now k).symm, _, valOf_ok h k, fun buf => valueOrNull_eq h k buf, valOf_reply _⟩

theorem present_step {nt : Bool} {k : Bytes} {s s' : Spec.State} {r : Spec.Reply} (h : Spec.Step env false e.now (.load k nt none) s r s') :
    s' = s ∧ (r.status = .found ↔ (s.dict.get e.now k).isSome) := by
  unfold Spec.Step at h
  simp only [] at h
  cases hg : s.dict.get e.now k with
  | none => rw [hg] at h; simp only [] at h; rw [h.1]; exact ⟨h.2, by simp⟩
  | some it => rw [hg] at h; simp only [] at h; rw [h.1]; exact ⟨h.2, by simp⟩

/-- A command on several keys is served key by key. -/
theorem serving_keys {a : Ask} {args : List Bytes} (hw : Words a args) (h1 : ¬ Plain a) (he : Fine e) (hle : t0 ≤ e.now) (hlen : args.length ≤ 100000) :
    Serving env t0 e a (parts a) [] (batched args) (evcommand e pw (admin y) args ⟨true⟩) := by
  obtain ⟨h2, p, h3, h4⟩ := words_loop hw h1 he.1 pw y
  have hr := he.1
  rw [h2, h3]
  have here : ∀ k : Bytes, k ∈ [k] := fun k => List.mem_singleton.2 rfl
  -- counting
  have count : ∀ (nt : Bool) (part : Bytes → Ask), (∀ k (m : Store), Serves e.now m (part k) (.int (if (m.see e.now k).isSome then 1 else 0)) m) →
      ∀ k (x : Nat) ps (s : Spec.State) (m : Store) r s', (total ps = x ∧ x ≤ ps.length) → Agrees t0 s.dict m → Spec.Step env false e.now (.load k nt none) s r s' →
      ∃ rep m', Serves e.now m (part k) rep m' ∧ Agrees t0 s'.dict m' ∧ Marked e.now (part k) s m s' m' ∧
        (total (ps ++ [rep]) = ((if r.status = .found then x + 1 else x : Nat) : Int) ∧ (if r.status = .found then x + 1 else x) ≤ (ps ++ [rep]).length) := by
    intro nt part hpart k x ps s m r s' hi hag hst
    obtain ⟨rfl, g1⟩ := present_step hst
    have hs := seen_some (hag.later hle) k
    refine ⟨_, m, hpart k m, hag, marked_same rfl, ?_⟩
    rw [total_snoc, hi.1]
    by_cases hf : r.status = .found
    · have := g1.1 hf
      rw [hs] at this
      rw [if_pos hf, if_pos this]
      refine ⟨by push_cast; rfl, by simp; omega⟩
    · have : ¬ (m.see e.now k).isSome = true := by rw [← hs]; exact fun hc => hf (g1.2 hc)
      rw [if_neg hf, if_neg this]
      refine ⟨by simp, by simp; omega⟩
  have fine : ∀ (ks : List Bytes) (x : Nat) (ps : List Reply), ks.length < args.length → (total ps = x ∧ x ≤ ps.length) → ps.length = ks.length →
      Sends [.int x] (.int (total ps)) := by
    intro ks x ps hks hi hl
    rw [hi.1]
    exact sends_int _ (by unfold IsI64; omega)
  rcases h4 with ⟨ks, h5, h6, rfl, rfl⟩ | ⟨ks, h5, h6, rfl, rfl⟩ | ⟨ks, h5, h6, rfl, rfl⟩ | ⟨ks, h5, h6, rfl, rfl⟩
  · refine serving_loop (.mget ks) (fun ks (x : List W × Nat) => mgetLoop e .mget ks x.1 x.2) (fun k => .load k false (some fun _ => none)) .get
      (fun x r => (x.1 ++ if r.status = .notfound then (if e.proto = .resp then [.null] else []) else r.shown.flatMap (getEntry e .mget),
        if r.status = .notfound then x.2 else x.2 + 1)) (fun x => x.1 ++ []) (fun x ps => ∃ ws, x.1 = .arr ks.length :: ws ∧ List.Forall₂ Shows ws ps) ks.length
      (fun k ks x => rfl) (fun x => ?_) (fun k => ⟨rfl, trivial⟩) (fun k => here k) ?_ ?_ ks h5 ([.arr ks.length], 0) [] ⟨[], rfl, .nil⟩ (by simp)
    · unfold mgetLoop
      rw [if_neg (by rw [hr]; decide), if_neg (by rw [hr]; decide)]
    · rintro k x ps s m r s' ⟨ws, i1, i2⟩ _ hag _ hst
      obtain ⟨rfl, g⟩ := load_step hst
      refine ⟨_, m, .get, hag, marked_same rfl, ws ++ [valueOrNull s'.dict e.now k], ?_, List.rel_append i2 (.cons (shows_value (hag.later hle) k) .nil)⟩
      simp only [i1, List.cons_append, List.cons.injEq, true_and]
      congr 1
      rcases g with ⟨g, rfl⟩ | ⟨it, g, rfl⟩
      · rw [if_pos rfl, if_pos hr]; unfold valueOrNull; rw [g]
      · rw [if_neg (by simp)]; simp [getEntry, hr, valueOrNull, g]
    · rintro x ps ⟨ws, i1, i2⟩ hl
      rw [i1, ← hl, List.append_nil]
      exact sends_array i2 (by omega)
  · refine serving_loop (.exist ks) (fun ks (x : Nat) => existsLoop e ks x) (fun k => .load k true none) (fun k => .exist [k])
      (fun x r => if r.status = .found then x + 1 else x) (fun x => [.int x]) (fun x ps => total ps = x ∧ x ≤ ps.length) ks.length
      (fun k ks x => rfl) (fun x => ?_) (fun k => ⟨rfl, trivial⟩) (fun k => here k) ?_ ?_ ks h5 0 [] ⟨rfl, by simp⟩ (by simp)
    · unfold existsLoop
      rw [if_neg (by rw [hr]; decide)]
    · intro k x ps s m r s' hi _ hag _ hst
      refine count true (fun k => .exist [k]) (fun k m => ?_) k x ps s m r s' hi hag hst
      have := Serves.exist (now := e.now) (m := m) (ks := [k])
      simpa [List.countP_cons] using this
    · exact fun x ps hi hl => fine ks x ps h6 hi hl
  · refine serving_loop (.touch ks) (fun ks (x : Nat) => touchLoop e ks x) (fun k => .load k false none) (fun k => .touch [k])
      (fun x r => if r.status = .found then x + 1 else x) (fun x => [.int x]) (fun x ps => total ps = x ∧ x ≤ ps.length) ks.length
      (fun k ks x => rfl) (fun x => ?_) (fun k => ⟨rfl, trivial⟩) (fun k => here k) ?_ ?_ ks h5 0 [] ⟨rfl, by simp⟩ (by simp)
    · unfold touchLoop
      rw [if_neg (by rw [hr]; decide), if_neg (by rw [hr]; decide)]
    · intro k x ps s m r s' hi _ hag _ hst
      refine count false (fun k => .touch [k]) (fun k m => ?_) k x ps s m r s' hi hag hst
      have := Serves.touch (now := e.now) (m := m) (ks := [k])
      simpa [List.countP_cons] using this
    · exact fun x ps hi hl => fine ks x ps h6 hi hl
  · refine serving_loop (.del ks) (fun ks (x : Nat) => Cmd.delLoop e ks x) (fun k => .delete k none) (fun k => .del [k])
      (fun x r => if r.status = .deleted then x + 1 else x) (fun x => [.int x]) (fun x ps => total ps = x ∧ x ≤ ps.length) ks.length
      (fun k ks x => rfl) (fun x => ?_) (fun k => ⟨rfl, rfl⟩) (fun k => here k) ?_ ?_ ks h5 0 [] ⟨rfl, by simp⟩ (by simp)
    · unfold Cmd.delLoop
      rw [hr]
    · intro k x ps s m r s' hi _ hag hf hst
      have hs := seen_some (hag.later hle) k
      have hserve := Serves.del (now := e.now) (m := m) (ks := [k])
      have hag' : s'.dict = update s.dict k none → Agrees t0 s'.dict (fun j => if j ∈ [k] then none else m j) := by
        intro hd
        have hne : ∀ j, j ≠ k → (if j ∈ [k] then none else m j) = m j := fun j hj => if_neg (by simpa using hj)
        refine ⟨fun j => ?_, fun j z hz => ?_⟩
        · by_cases hj : j = k
          · subst hj
            exact see_congr (by rw [hd, update_self, if_pos (by simp)]; rfl)
          · refine Eq.trans ?_ ((hag.1 j).trans (see_congr (hne j hj)).symm)
            exact see_congr (by rw [hd, update_of_ne hj])
        · by_cases hj : j = k
          · subst hj
            rw [see_congr (m' := fun _ => none) (if_pos (by simp))] at hz
            cases hz
          · rw [see_congr (m' := m) (hne j hj)] at hz
            exact hag.2 j z hz
      cases hg : s.dict.get e.now k with
      | none =>
        simp [Spec.Step, hg] at hst
        obtain ⟨rfl, rfl⟩ := hst
        rw [hg] at hf hs
        refine ⟨_, _, hserve, hag' (by rw [← hf, update_eq_self]), fun j => ?_, ?_⟩
        · by_cases hjk : j = k
          · subst hjk; exact Or.inr (Or.inl (if_pos (by simp)))
          · exact Or.inl ⟨rfl, if_neg (by simpa using hjk)⟩
        rw [if_neg (by simp)]
        have : (List.countP (fun k => (m.see e.now k).isSome) [k].dedup : Nat) = 0 := by
          simp [← hs]
        rw [this, total_snoc]
        exact ⟨by rw [hi.1]; simp, by simp; omega⟩
      | some it =>
        simp [Spec.Step, hg] at hst
        obtain ⟨rfl, rfl⟩ := hst
        rw [hg] at hs
        refine ⟨_, _, hserve, hag' rfl, fun j => ?_, ?_⟩
        · by_cases hjk : j = k
          · subst hjk; exact Or.inr (Or.inl (if_pos (by simp)))
          · exact Or.inl ⟨by simp [update_of_ne hjk], if_neg (by simpa using hjk)⟩
        rw [if_pos rfl]
        have : (List.countP (fun k => (m.see e.now k).isSome) [k].dedup : Nat) = 1 := by
          simp [← hs]
        rw [this, total_snoc]
        exact ⟨by rw [hi.1]; simp, by simp; omega⟩
    · exact fun x ps hi hl => fine ks x ps h6 hi hl

/-- Any command. -/
theorem serving {a : Ask} {args : List Bytes} (hw : Words a args) (he : Fine e) (hle : t0 ≤ e.now)
    (hlen : args.length ≤ 100000 ∧ ∀ x ∈ args, x.length ≤ longest) :
    Serving env t0 e a (parts a) [] (batched args) (evcommand e pw (admin y) args ⟨true⟩) := by
  by_cases h1 : Plain a
  · exact serving_plain hw h1 he hle hlen
  · exact serving_keys hw h1 he hle hlen.1

end Verif.Many
