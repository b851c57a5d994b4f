import Mathlib.Tactic.Common
import Verif.Net.LoopProps

/-! C82: a connection to which writing failed is closed in the same round (`/repo/src/net.c:693-697, 848-855`). -/

namespace Verif.Net.Loop

open Function (update)

variable {cap : Nat} {lst : Nat → Bool} {hash : Nat → Nat}

/-- What a failed write leaves: the connection counts as closed, and does no background work. -/
def Doomed (k : Conn) : Prop := k.closed = true ∧ k.bg = none

/-- Every connection in memory to which writing failed is about to be closed; the others with failures have been opened before. -/
structure BrokenInv (s : S) : Prop where
  doomed : ∀ i k, s.heap i = some k → .broken i ∈ s.log → Doomed k
  fresh : ∀ i, .broken i ∈ s.log → i < s.next

theorem flush_broken {id : Nat} {b : Bool} {k : Conn} (hb : k.bg = none) (h : .broken id ∈ (flush id b k).2) : Doomed (flush id b k).1 := by
  revert h
  unfold flush
  split
  · simp
  · split
    · simp
    · intro _; exact ⟨rfl, hb⟩

theorem flush_doomed {id : Nat} {b : Bool} {k : Conn} (h : Doomed k) : Doomed (flush id b k).1 := by
  unfold flush
  split
  · exact h
  · split
    · exact h
    · exact ⟨rfl, h.2⟩

/-- A handler does not undo it. -/
theorem runOps_broken {id : Nat} (os : List Op) {k k1 : Conn} {w w1 : Option Want} {l l1 : List Ev} (h : runOps id os (k, w, l) = some (k1, w1, l1))
    {P : Prop} (h0 : P ∨ .broken id ∈ l → Doomed k) : P ∨ .broken id ∈ l1 → Doomed k1 := by
  induction os generalizing k w l with
  | nil =>
    simp only [runOps, Option.some.injEq, Prod.mk.injEq] at h
    obtain ⟨rfl, rfl, rfl⟩ := h
    exact h0
  | cons o os ih =>
    rw [runOps] at h
    cases o with
    | write d =>
      refine ih (k := { k with out := k.out ++ d }) (l := l ++ [.wrote id d]) (w := w) (by simpa [runOp] using h) fun hp => ?_
      exact h0 (by simpa using hp)
    | close =>
      refine ih (k := { k with closed := true }) (l := l) (w := w) (by simpa [runOp] using h) fun hp => ?_
      exact ⟨rfl, (h0 hp).2⟩
    | count =>
      refine ih (k := { k with stat := k.stat + 1 }) (l := l ++ [.counted id]) (w := w) (by simpa [runOp] using h) fun hp => ?_
      exact h0 (by simpa using hp)
    | bgwork b =>
      by_cases hc : k.bg ≠ none ∨ k.closed = true
      · rw [runOp, if_pos hc] at h
        exact ih h h0
      · rw [runOp, if_neg hc] at h
        have hb : k.bg = none := by
          by_contra hx; exact hc (.inl hx)
        have hf : P ∨ .broken id ∈ l ++ (flush id b k).2 → Doomed (flush id b k).1 := by
          rintro (hp | hp)
          · exact flush_doomed (h0 (.inl hp))
          · rcases List.mem_append.1 hp with hp | hp
            · exact flush_doomed (h0 (.inr hp))
            · exact flush_broken hb hp
        by_cases hcl : (flush id b k).1.closed = true
        · simp only [if_pos hcl, Option.bind_some] at h
          exact ih h hf
        · simp only [if_neg hcl] at h
          by_cases hw : w ≠ some .read
          · simp [if_pos hw] at h
          · simp only [if_neg hw, Option.bind_some] at h
            exact ih h fun hp => absurd (hf hp).1 hcl

/-- While there is background work, a handler does not write to the socket. -/
theorem nobroken {id : Nat} (os : List Op) {k k1 : Conn} {w w1 : Option Want} {l l1 : List Ev} (h : runOps id os (k, w, l) = some (k1, w1, l1)) (hb : k.bg ≠ none)
    (h0 : .broken id ∉ l) : .broken id ∉ l1 := by
  induction os generalizing k w l with
  | nil =>
    simp only [runOps, Option.some.injEq, Prod.mk.injEq] at h
    obtain ⟨rfl, rfl, rfl⟩ := h
    exact h0
  | cons o os ih =>
    rw [runOps] at h
    cases o with
    | write d => exact ih (k := { k with out := k.out ++ d }) (l := l ++ [.wrote id d]) (w := w) (by simpa [runOp] using h) hb (by simpa using h0)
    | close => exact ih (k := { k with closed := true }) (l := l) (w := w) (by simpa [runOp] using h) hb h0
    | count => exact ih (k := { k with stat := k.stat + 1 }) (l := l ++ [.counted id]) (w := w) (by simpa [runOp] using h) hb (by simpa using h0)
    | bgwork b =>
      rw [runOp, if_pos (.inl hb)] at h
      exact ih h hb h0

theorem BrokenInv.same {s s' : S} (h : BrokenInv s) (h1 : s'.heap = s.heap) (h2 : s'.next = s.next) (h3 : s'.log = s.log) : BrokenInv s' :=
  ⟨fun i k => by rw [h1, h3]; exact h.doomed i k, fun i => by rw [h2, h3]; exact h.fresh i⟩

/-- Something happens to one connection. -/
theorem BrokenInv.touch {s s' : S} (h : BrokenInv s) {id : Nat} {k' : Conn} (hid : id < s.next) (hheap : s'.heap = update s.heap id (some k')) (hnext : s'.next = s.next)
    {m : List Ev} (hlog : s'.log = s.log ++ m) (hm : ∀ e ∈ m, e.id = id) (hk : .broken id ∈ s.log ∨ .broken id ∈ m → Doomed k') : BrokenInv s' := by
  have key : ∀ i, i ≠ id → .broken i ∈ s'.log → .broken i ∈ s.log := by
    intro i hi hb
    rw [hlog] at hb
    rcases List.mem_append.1 hb with hb | hb
    · exact hb
    · exact absurd (hm _ hb) hi
  refine ⟨fun i k hik hb => ?_, fun i hb => ?_⟩
  · by_cases hi : i = id
    · subst hi
      rw [hheap, Function.update_self] at hik
      cases hik
      rw [hlog] at hb
      exact hk (List.mem_append.1 hb)
    · rw [hheap, Function.update_of_ne hi] at hik
      exact h.doomed i k hik (key i hi hb)
  · rw [hnext]
    by_cases hi : i = id
    · rw [hi]; exact hid
    · exact h.fresh i (key i hi hb)

theorem sort_broken {s s' : S} {id : Nat} {k : Conn} (h : BrokenInv s) (he : sort cap s id k = .ok s') : BrokenInv s' := by
  unfold sort at he
  (repeat' split at he) <;> first | (cases he; exact h.same rfl rfl rfl) | cases he

theorem accept_broken {s s' : S} {fd : Nat} {l : List Nat} {o : Orc} (h : BrokenInv s) (he : acceptStep cap lst hash o s fd l = .ok s') : BrokenInv s' := by
  unfold acceptStep at he
  split at he
  · split at he
    · cases he
    · refine sort_broken ?_ he
      exact h.same rfl rfl rfl
  · split at he
    · cases he; exact h.same rfl rfl rfl
    · split at he
      · cases he; exact h.same rfl rfl rfl
      · refine sort_broken ?_ he
        refine ⟨fun i k hik hb => ?_, fun i hb => ?_⟩
        · simp only [List.mem_append, List.mem_singleton, reduceCtorEq, or_false] at hb hik
          by_cases hi : i = s.next
          · exact absurd (h.fresh i hb) (by omega)
          · rw [Function.update_of_ne hi] at hik
            exact h.doomed i k hik hb
        · simp only [List.mem_append, List.mem_singleton, reduceCtorEq, or_false] at hb
          have := h.fresh i hb
          simp only []
          omega

theorem attach_broken {s s' : S} {id : Nat} {l : List Nat} {o : Orc} (hn : ∀ k, s.heap id = some k → id < s.next) (h : BrokenInv s)
    (he : attachStep cap o s id l = .ok s') : BrokenInv s' := by
  unfold attachStep at he
  split at he
  · cases he
  · rename_i k hk
    split at he
    · cases he
    · rename_i hbg
      simp only [ne_eq, not_not] at hbg
      split at he
      · cases he
      · rename_i k1 w l1 hr
        split at he
        · cases he
        · have hnb : ¬ (.broken id ∈ s.log) := fun hb => by
            have := (h.doomed id k hk hb).2
            rw [hbg] at this; cases this
          have hf := flush_log id o.sent { k1 with bg := none }
          obtain ⟨m, hm1, hm2, -⟩ := runOps_log o.ops hr
          rw [List.nil_append] at hm1
          subst hm1
          have hk0 : BrokenInv { s with qattachs := l, heap := update s.heap id (some (flush id o.sent { k1 with bg := none }).1), reg := update s.reg k.fd (some .read), log := s.log ++ l1 ++ (flush id o.sent { k1 with bg := none }).2 } := by
            refine h.touch (hn k hk) rfl rfl (m := l1 ++ (flush id o.sent { k1 with bg := none }).2) (by simp) ?_ ?_
            · intro e hmem
              rcases List.mem_append.1 hmem with hmem | hmem
              · exact (hm2 e hmem).1
              · exact (hf.1 e hmem).1
            · rintro (hb | hb)
              · exact absurd hb hnb
              · rcases List.mem_append.1 hb with hb | hb
                · have := nobroken o.ops hr (by rw [hbg]; simp)
                  exact absurd hb (this (by simp))
                · exact flush_broken rfl hb
          simp only [] at he
          split at he
          · split at he
            · cases he; exact hk0.same rfl rfl rfl
            · cases he
          · split at he
            · cases he; exact hk0.same rfl rfl rfl
            · cases he

theorem read_broken {s s' : S} {id : Nat} {l : List Nat} {o : Orc} (h : BrokenInv s) (he : readStep cap o s id l = .ok s') : BrokenInv s' := by
  unfold readStep at he
  split at he
  · cases he
  · split at he
    · cases he
    · split at he
      · split at he
        · cases he; exact h.same rfl rfl rfl
        · cases he
      · split at he
        · cases he
          exact ⟨fun i k hik hb => h.doomed i k hik (by simpa using hb), fun i hb => h.fresh i (by simpa using hb)⟩
        · cases he

theorem process_broken {s s' : S} {id : Nat} {d : Bytes} {l : List (Nat × Bytes)} {o : Orc} (hn : ∀ k, s.heap id = some k → id < s.next) (h : BrokenInv s)
    (he : processStep cap o s id d l = .ok s') : BrokenInv s' := by
  unfold processStep at he
  split at he
  · cases he
  · rename_i k hk
    split at he
    · cases he
    · rename_i k1 w l1 hr
      obtain ⟨m, hm1, hm2, -⟩ := runOps_log o.ops hr
      have hk0 : BrokenInv { s with qins := l, heap := update s.heap id (some { k1 with stat := 0 }), reg := update s.reg k.fd w, log := s.log ++ l1,
                                     sum := s.sum + k1.stat } := by
        refine h.touch (hn k hk) rfl rfl (m := l1) rfl ?_ ?_
        · intro e hmem
          rw [hm1] at hmem
          rcases List.mem_append.1 hmem with hmem | hmem
          · rw [List.mem_singleton.1 hmem]; rfl
          · exact (hm2 e hmem).1
        · exact runOps_broken o.ops hr fun hb => h.doomed id k hk (by simpa using hb)
      simp only [] at he
      (repeat' split at he) <;> first | (cases he; exact hk0.same rfl rfl rfl) | cases he

theorem write_broken {s s' : S} {id : Nat} {l : List Nat} {o : Orc} (hn : ∀ k, s.heap id = some k → id < s.next ∧ k.bg = none) (h : BrokenInv s)
    (he : writeStep cap o s id l = .ok s') : BrokenInv s' := by
  unfold writeStep at he
  split at he
  · cases he
  · rename_i k hk
    have hk0 : BrokenInv { s with qouts := l, heap := update s.heap id (some (flush id o.sent k).1), log := s.log ++ (flush id o.sent k).2 } := by
      refine h.touch (hn k hk).1 rfl rfl (m := (flush id o.sent k).2) rfl (fun e hmem => ((flush_log id o.sent k).1 e hmem).1) ?_
      rintro (hb | hb)
      · exact flush_doomed (h.doomed id k hk hb)
      · exact flush_broken (hn k hk).2 hb
    simp only [] at he
    (repeat' split at he) <;> first | (cases he; exact hk0.same rfl rfl rfl) | cases he

theorem close_broken {s s' : S} {id : Nat} {l : List Nat} (h : BrokenInv s) (he : closeStep hash s id l = .ok s') : BrokenInv s' := by
  unfold closeStep at he
  split at he
  · cases he
  · split at he
    · cases he
    · split at he
      · cases he
      · cases he
        refine ⟨fun i k hik hb => ?_, fun i hb => h.fresh i (by simpa using hb)⟩
        by_cases hi : i = id
        · subst hi; simp at hik
        · simp only [Function.update_of_ne hi] at hik
          exact h.doomed i k hik (by simpa using hb)

theorem step_broken {s s' : S} {cs : List Cmap.Conn} (hi : Inv cap lst hash s cs) (h : BrokenInv s) {o : Orc} (he : step cap lst hash o s = .ok s') : BrokenInv s' := by
  unfold step at he
  split at he
  · cases he; exact h.same rfl rfl rfl
  · cases he; exact h.same rfl rfl rfl
  · split at he
    · cases he; exact h.same rfl rfl rfl
    · exact accept_broken h he
  · split at he
    · cases he; exact h.same rfl rfl rfl
    · exact attach_broken (fun k hk => (hi.conn _ k hk).fresh) h he
  · split at he
    · cases he; exact h.same rfl rfl rfl
    · exact read_broken h he
  · split at he
    · cases he; exact h.same rfl rfl rfl
    · exact process_broken (fun k hk => (hi.conn _ k hk).fresh) h he
  · split at he
    · cases he; exact h.same rfl rfl rfl
    · rename_i hq
      exact write_broken (fun k hk => ⟨(hi.conn _ k hk).fresh, (hi.conn _ k hk).outs (by simp [hq])⟩) h he
  · split at he
    · cases he; exact h.same rfl rfl rfl
    · exact close_broken h he

theorem reach_broken {s : S} (h : Reach cap lst hash s) : BrokenInv s := by
  induction h with
  | new => exact ⟨fun i k hk => by simp [new] at hk, fun i hb => by simp [new] at hb⟩
  | step o hr ho hs ih =>
    obtain ⟨cs, hi⟩ := reach_inv hr
    exact step_broken hi ih hs
  | @env s s' e hr he hs ih =>
    cases e with
    | accepted fd => cases hs; exact ih.same rfl rfl rfl
    | finished id =>
      obtain ⟨k, hk, hbg⟩ := he
      obtain ⟨cs, hi⟩ := reach_inv hr
      unfold envStep at hs
      simp only [hk] at hs
      split at hs
      · cases hs
      · cases hs
        refine ih.touch (hi.conn id k hk).fresh rfl rfl (m := []) (by simp) (by simp) ?_
        rintro (hb | hb)
        · have := (ih.doomed id k hk hb).2
          rw [hbg] at this; cases this
        · simp at hb

/-- **C82**: a connection to which writing failed is not kept.  When the thread waits for events again, it has been closed, once and for all. -/
theorem broken_closed {s : S} (h : Reach cap lst hash s) (hw : s.pc = .wait) {i : Nat} (hb : .broken i ∈ s.log) : s.heap i = none ∧ life i s.log = some .dead := by
  obtain ⟨cs, hi⟩ := reach_inv h
  have hbi := reach_broken h
  have hn : s.heap i = none := by
    cases hk : s.heap i with
    | none => rfl
    | some k =>
      obtain ⟨h1, h2⟩ := hbi.doomed i k hk hb
      have he : busy s = [] := by have := hi.empty; simp only [Empty, hw] at this; exact this.2.1
      have := ((hi.conn i k hk).idle (by simp [he]) h2).2
      rw [h1] at this; cases this
  refine ⟨hn, ?_⟩
  rw [(reach_log h).life i, stage, if_neg (by have := hbi.fresh i hb; omega), hn]
  rfl

/-- Connections 7 and 8 are asked; the answer to 7 cannot be written. -/
def failing : List (Orc ⊕ Env) :=
  [tick, .inr (.accepted 7), .inr (.accepted 8), .inl { quiet with events := [7, 8] }, tick, tick, tick, tick,
   .inl { quiet with rd := .data [1, 2] }, .inl { quiet with rd := .data [3] }, tick,
   .inl { quiet with ops := [.write [104, 105]] }, .inl { quiet with ops := [.write [111]] }, tick,
   .inl { quiet with sent := false }, tick, tick, tick, tick, tick]

/-- It happens: 7 is closed, and 8 goes on. -/
example : ∃ s, Reach 4 (· == 3) id s ∧ s.pc = .wait ∧ .broken 0 ∈ s.log ∧ sentTo 0 s.log = [] ∧ life 1 s.log = some .live ∧ s.isopen 7 = false := by
  have h : ∃ s, after failing = some s ∧ s.pc = .wait ∧ .broken 0 ∈ s.log ∧ sentTo 0 s.log = [] ∧ life 1 s.log = some .live ∧ s.isopen 7 = false := by
    refine ⟨(after failing).get (by decide +kernel), by simp, ?_⟩
    decide +kernel
  obtain ⟨s, h1, h2⟩ := h
  exact ⟨s, after_reach h1, h2⟩

end Verif.Net.Loop
