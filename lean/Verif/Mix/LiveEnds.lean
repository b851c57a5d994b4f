import Mathlib.Tactic.Common
import Verif.Mix.Ends
import Verif.Mix.Live

/-!
C125: clients of all protocols and threads that save, sweep and flush do not block each other for ever, and come to an end.
-/

namespace Verif.Mix

open Verif.Num Verif.Resp Verif.Cmd Verif.Cache Verif.Shard Verif.Map Function
open Verif.Many (Shape Goods On onShard callKey good_key Chore Worker choreStep choreOp)

variable {c : Ctx} {n : Nat} {kind : Nat → Kind} {pw : Bytes} {y : Sys} {clock : Nat → Nat → Env} {addr : Nat → Nat}
  {asks : Nat → List Ask} {chunks : Nat → List Bytes} {cs : Nat → List Req} {ws : Nat → List Bytes} {work : Nat → Option (List Chore)}

/-- A thread in the middle of its work: a command that was sent and makes calls on keys (with a batch, on one key); or a chore, not begun or done. -/
def ThreadOk (ws : List Bytes) : (Nat × Loc) ⊕ Worker → Prop
  | .inl l => (∃ own used Q, l.2.job = .val (some ⟨own, used, Q⟩) ∧ Shape own Q ∧ l.2.done + 1 ≤ ws.length) ∨ l.2.job = .val none ∨ l.2.job = .abort true
  | .inr w => w.got = .val none ∨ ∃ l x xs, w.got = .val (some l) ∧ w.todo = x :: xs

theorem thread_ok (hv : c.Valid) (hu : c.usecas = true) (hn : 0 < n) {shs : Shards} (hA : AllInv c n shs) {now0 : Int} {s : Spec.State} (hR : R c n now0 shs s)
    (hs : ∀ k it, s.dict k = some it → it.value.length ≤ Wire.longest ∧ it.expires < 2 ^ 63) (hclock : ∀ t i, Fine (kind t) (clock t i)) (hle : ∀ t i, now0 ≤ (clock t i).now)
    (hcl : Parsed pw y kind asks chunks cs ws) (hwork : ∀ t l, work t = some l → ∀ x ∈ l, x.shard < n ∧ now0 ≤ x.now)
    (hp : (liveServer c n kind pw y clock addr).Ok) {h : List Nat} {s' : Conc.State ((Nat × Loc) ⊕ Worker) Sh}
    (he : Conc.Exec (liveServer c n kind pw y clock addr) (liveStart kind pw y clock chunks work) shs s' h) (t : Nat) : ThreadOk (ws t) (s'.loc t) := by
  obtain ⟨locA, memA, hser, hsim⟩ := Conc.exec_sim hp live_no_unlock he
  obtain ⟨⟨h1, h2, _⟩, h4⟩ := live_inv hv hu hn hA hR (agr_ofState hs _) hclock hle hcl hwork hser
  have hfrom : ThreadOk (ws t) (locA t) := by
    obtain ⟨_, g2⟩ := h2 t
    unfold clientOf at g2
    have g4 := h4 t
    cases hl : locA t with
    | inl l =>
      rw [hl] at g2
      rcases g2 with hj | ⟨args, P, b1, b2, b3, b4, _⟩
      · exact Or.inr (Or.inl hj)
      · exact Or.inl ⟨_, _, _, b2, b3, b4⟩
    | inr w =>
      rw [hl] at g4
      exact Or.inl g4.1
  cases hrel : s'.rel t with
  | true => rw [(hsim.rel t hrel).1]; exact hfrom
  | false =>
    obtain ⟨m1, hrun, _⟩ := hsim.run t hrel
    cases hl : locA t with
    | inl l =>
      obtain ⟨g1, g2⟩ := h2 t
      unfold clientOf at g1 g2
      rw [hl] at g1 g2 hrun
      obtain ⟨l1, e1, hrun⟩ := live_run_client hrun
      rw [e1]
      obtain ⟨u, l⟩ := l
      simp only [] at g1 g2
      subst g1
      rcases g2 with hidle | ⟨args, P, b1, b2, b3, b4, _⟩
      · obtain ⟨e1, _⟩ := run_idle hidle hrun
        rw [e1]
        exact Or.inr (Or.inl hidle)
      · obtain ⟨_, _, d3, d4⟩ := run_part hv hn (hclock u l.done) b2 b3 h1 hrun
        rcases d4 with ⟨_, _, _, d4, d5, _⟩ | d4
        · exact Or.inl ⟨_, _, _, d4, d5, by rw [d3]; exact b4⟩
        · exact Or.inr (Or.inr d4)
    | inr w =>
      have g4 := h4 t
      rw [hl] at g4 hrun
      rcases live_run_worker hv g4.1 (fun x hx => (hwork t _ g4.2 x (List.mem_append_right _ hx)).1) h1 hrun with ⟨e1, _⟩ | ⟨x, xs, l, sh, k1, _, e1, _⟩
      · rw [e1]; exact Or.inl g4.1
      · rw [e1]; exact Or.inr ⟨l, x, xs, rfl, k1⟩

theorem live_access {z : (Nat × Loc) ⊕ Worker} {own : Bool} {i : Nat} {f : Sh → ((Nat × Loc) ⊕ Worker) × Sh} (h : (liveServer c n kind pw y clock addr).act z = .access own i f) :
    (∃ l g, z = .inl l ∧ (server c n kind pw y clock addr).act l = .access own i g ∧ ∀ sh, f sh = (.inl (g sh).1, (g sh).2)) ∨
    ∃ w x xs, z = .inr w ∧ w.todo = x :: xs ∧ w.got = .val none ∧ own = false ∧ i = x.shard ∧ ∀ sh, ∃ g, (f sh).1 = .inr { w with got := g } ∧ g ≠ .val none := by
  cases z with
  | inl l =>
    simp only [liveServer] at h
    cases hs : (server c n kind pw y clock addr).act l with
    | access own' i' f' => rw [hs] at h; cases h; exact Or.inl ⟨l, _, rfl, hs, fun _ => rfl⟩
    | unlock i' l'' => rw [hs] at h; cases h
    | commit l'' => rw [hs] at h; cases h
    | done => rw [hs] at h; cases h
  | inr w =>
    simp only [liveServer] at h
    cases hs : choreStep c w with
    | unlock i' l'' => rw [hs] at h; cases h
    | commit l'' => rw [hs] at h; cases h
    | done => rw [hs] at h; cases h
    | access own' i' f' =>
      rw [hs] at h
      cases h
      unfold choreStep at hs
      split at hs
      · rename_i x xs h1 h2
        cases hs
        refine Or.inr ⟨w, x, _, rfl, h1, h2, rfl, rfl, fun sh => ?_⟩
        simp only []
        cases choreOp c x sh with
        | val r => exact ⟨_, rfl, by simp⟩
        | hang => exact ⟨_, rfl, by simp [Out.bind]⟩
        | ub => exact ⟨_, rfl, by simp [Out.bind]⟩
        | abort b => exact ⟨_, rfl, by simp [Out.bind]⟩
      · cases hs
      · cases hs

/-- A locked shard is that of the command or of the chore in execution, and locks have owners. -/
structure LockedLive (c : Ctx) (n : Nat) (s : Conc.State ((Nat × Loc) ⊕ Worker) Sh) : Prop where
  mine : ∀ t, s.rel t = false → ∀ i b, (i, b) ∈ s.held t →
    (∃ l used Q, s.loc t = .inl l ∧ l.2.job = .val (some ⟨b, used, Q⟩) ∧ Why c n i b used Q) ∨ (∃ l, s.loc t = .inl l ∧ l.2.job = .abort true) ∨
    ∃ w x xs, s.loc t = .inr w ∧ w.todo = x :: xs ∧ b = false ∧ i = x.shard
  owned : ∀ i, s.lock i ≠ 0 → ∃ t b, (i, b) ∈ s.held t

theorem live_locked {start : Nat → (Nat × Loc) ⊕ Worker} {shs : Shards}
    (hok : ∀ {s h}, Conc.Exec (liveServer c n kind pw y clock addr) start shs s h → ∀ t, ThreadOk (ws t) (s.loc t)) {h : List Nat} {s' : Conc.State ((Nat × Loc) ⊕ Worker) Sh}
    (he : Conc.Exec (liveServer c n kind pw y clock addr) start shs s' h) : LockedLive c n s' := by
  induction he with
  | start => exact ⟨by simp [Conc.start], by simp [Conc.start]⟩
  | @step s1 s2 h t b hx hst ih =>
    have hon := hok hx
    have hon' := hok (.step hx hst)
    cases hst with
    | @lock own i f hr ha hl0 =>
      constructor
      · intro u hu j b' hm
        by_cases hut : u = t
        · subst hut
          simp only [update_self, List.mem_cons, Prod.mk.injEq] at hm
          rcases hm with ⟨rfl, rfl⟩ | hm
          · rcases live_access ha with ⟨l, g, e1, e2, _⟩ | ⟨w, x, xs, e1, e2, _, e3, e4, _⟩
            · obtain ⟨used, op, k, key, a1, _, a3, rfl, _⟩ := act_access e2
              left
              refine ⟨l, used, _, e1, a1, ?_⟩
              cases b' with
              | false => exact Or.inr ⟨rfl, Or.inr ⟨op, k, key, rfl, a3, rfl⟩⟩
              | true =>
                left
                have hl := hon u
                rw [e1] at hl
                rcases hl with ⟨_, _, _, b1, b2, _⟩ | b1 | b1
                · rw [a1] at b1
                  simp only [Out.val.injEq, Option.some.injEq, Job.mk.injEq] at b1
                  obtain ⟨b3, _, rfl⟩ := b1
                  obtain ⟨key', b4, _⟩ := b2.2 b3.symm
                  have : key' = key := by
                    have := b4.1
                    rw [a3] at this
                    exact (Option.some.inj this).symm
                  exact ⟨rfl, key, this ▸ b4, rfl⟩
                · rw [a1] at b1; cases b1
                · rw [a1] at b1; cases b1
            · exact Or.inr (Or.inr ⟨w, x, xs, e1, e2, e3, e4⟩)
          · exact ih.mine u hu j b' hm
        · simp only [update_of_ne hut] at hm
          exact ih.mine u hu j b' hm
      · intro j hj
        by_cases hji : j = i
        · subst hji; exact ⟨t, own, by simp⟩
        · simp only [update_of_ne hji] at hj
          obtain ⟨u, b', hb⟩ := ih.owned j hj
          refine ⟨u, b', ?_⟩
          by_cases hut : u = t
          · subst hut; simp [hb]
          · simp only [update_of_ne hut]; exact hb
    | @access own i f hr ha hal =>
      constructor
      · intro u hu j b' hm
        by_cases hut : u = t
        · subst hut
          have hu' := hon' u
          simp only [update_self] at hu' ⊢
          rcases live_access ha with ⟨l, g, e1, e2, e3⟩ | ⟨w, x, xs, e1, e2, _, rfl, rfl, e5⟩
          · obtain ⟨used, op, k, key, a1, _, a3, rfl, a5⟩ := act_access e2
            rcases ih.mine u hr j b' hm with ⟨l', used', Q, b0, b1, b2⟩ | ⟨l', b0, b1⟩ | ⟨w, x, xs, b0, _⟩
            · rw [e1] at b0
              cases b0
              rw [a1] at b1
              simp only [Out.val.injEq, Option.some.injEq, Job.mk.injEq] at b1
              obtain ⟨rfl, rfl, rfl⟩ := b1
              rw [e3, a5] at hu' ⊢
              cases hr' : onShard c (clock l.1 l.2.done).now (toOp op) (s1.mem (shardIdx c n key)) with
              | val r =>
                left
                refine ⟨_, true, _, rfl, rfl, ?_⟩
                rcases b2 with ⟨b2, key', b3, b4⟩ | ⟨b2, _⟩
                · exact Or.inl ⟨b2, key', b3.2 _, b4⟩
                · exact Or.inr ⟨b2, Or.inl rfl⟩
              | hang => rw [hr'] at hu'; rcases hu' with ⟨_, _, _, hc, _⟩ | hc | hc <;> cases hc
              | ub => rw [hr'] at hu'; rcases hu' with ⟨_, _, _, hc, _⟩ | hc | hc <;> cases hc
              | abort w =>
                rw [hr'] at hu'
                rcases hu' with ⟨_, _, _, hc, _⟩ | hc | hc
                · cases hc
                · cases hc
                · exact Or.inr (Or.inl ⟨_, rfl, hc⟩)
            · rw [e1] at b0; cases b0; rw [a1] at b1; cases b1
            · rw [e1] at b0; cases b0
          · rcases ih.mine u hr j b' hm with ⟨l', used', Q, b0, _⟩ | ⟨l', b0, _⟩ | ⟨w', x', xs', b0, b1, b2, b3⟩
            · rw [e1] at b0; cases b0
            · rw [e1] at b0; cases b0
            · rw [e1] at b0
              cases b0
              obtain ⟨g, e6, _⟩ := e5 (s1.mem x.shard)
              exact Or.inr (Or.inr ⟨_, x', xs', e6, b1, b2, b3⟩)
        · simp only [update_of_ne hut]
          exact ih.mine u hu j b' hm
      · exact ih.owned
    | @unlock i l _ ha _ => exact absurd ha (live_no_unlock _ _ _)
    | @commit l hr ha =>
      constructor
      · intro u hu j b' hm
        by_cases hut : u = t
        · subst hut; simp at hu
        · simp only [update_of_ne hut] at hu ⊢
          exact ih.mine u hu j b' hm
      · exact ih.owned
    | @release x xs hr hx' =>
      constructor
      · intro u hu j b' hm
        by_cases hut : u = t
        · subst hut; simp only [] at hu; rw [hr] at hu; simp at hu
        · simp only [update_of_ne hut] at hm
          exact ih.mine u hu j b' hm
      · intro j hj
        by_cases hji : j = x.1
        · subst hji; simp at hj
        · simp only [update_of_ne hji] at hj
          obtain ⟨u, b', hb⟩ := ih.owned j hj
          refine ⟨u, b', ?_⟩
          by_cases hut : u = t
          · subst hut
            rw [hx'] at hb
            rcases List.mem_cons.1 hb with hb | hb
            · exact absurd (by rw [← hb]) hji
            · simp [hb]
          · simp only [update_of_ne hut]; exact hb
    | @next hr hx' =>
      constructor
      · intro u hu j b' hm
        by_cases hut : u = t
        · subst hut
          simp only [] at hm
          rw [hx'] at hm; simp at hm
        · simp only [update_of_ne hut] at hu
          exact ih.mine u hu j b' hm
      · exact ih.owned

/-- A client with a command in execution, or a worker with a chore, can go on if the lock is free or its own. -/
theorem live_act_client {l : Nat × Loc} {own used : Bool} {Q : Prog (Bytes × Bool)} (hj : l.2.job = .val (some ⟨own, used, Q⟩)) (hg : Goods Q) :
    (∃ op k key f, Q = .call op k ∧ callKey op = some key ∧ ¬ (own = false ∧ used = true) ∧
      (liveServer c n kind pw y clock addr).act (.inl l) = .access own (shardIdx c n key) f) ∨
      ∃ l', (liveServer c n kind pw y clock addr).act (.inl l) = .commit l' := by
  rcases act_some (c := c) (n := n) (kind := kind) (pw := pw) (y := y) (clock := clock) (addr := addr) l hj hg with ⟨op, k, key, f, h1, h2, h3, h4⟩ | ⟨l', h4⟩
  · left
    refine ⟨op, k, key, fun sh => (.inl (f sh).1, (f sh).2), h1, h2, h3, ?_⟩
    simp only [liveServer, h4]
  · right
    refine ⟨.inl l', ?_⟩
    simp only [liveServer, h4]

theorem live_act_worker {ws : List Bytes} {w : Worker} {x : Chore} {xs : List Chore} (hok : ThreadOk ws (.inr w)) (ht : w.todo = x :: xs) :
    (∃ f, (liveServer c n kind pw y clock addr).act (.inr w) = .access false x.shard f) ∨ ∃ l', (liveServer c n kind pw y clock addr).act (.inr w) = .commit l' := by
  rcases hok with hg | ⟨l, _, _, hg, _⟩
  · left
    exact ⟨_, by simp only [liveServer, choreStep, ht, hg]; rfl⟩
  · right
    exact ⟨_, by simp only [liveServer, choreStep, ht, hg]; rfl⟩

/-- **C125.**  Clients of all protocols, and threads that save, sweep and flush, as in C123.  If nothing can happen any more (and the process has not given up), then every client has got the
replies to all commands that have come completely, and all chores are done: nobody waits for somebody else in a circle. -/
theorem live_answered (hv : c.Valid) (hu : c.usecas = true) (hn : 0 < n) {shs : Shards} (hA : AllInv c n shs) {now0 : Int} {s : Spec.State} (hR : R c n now0 shs s)
    (hs : ∀ k it, s.dict k = some it → it.value.length ≤ Wire.longest ∧ it.expires < 2 ^ 63) (hver : ∀ b ∈ y.version, 32 ≤ b)
    (hclock : ∀ t i, Fine (kind t) (clock t i)) (hle : ∀ t i, now0 ≤ (clock t i).now) (hcl : Clients pw kind asks chunks ws)
    (hwork : ∀ t l, work t = some l → ∀ x ∈ l, x.shard < n ∧ now0 ≤ x.now)
    (hp : (liveServer c n kind pw y clock addr).Ok) {h : List Nat} {s' : Conc.State ((Nat × Loc) ⊕ Worker) Sh}
    (he : Conc.Exec (liveServer c n kind pw y clock addr) (liveStart kind pw y clock chunks work) shs s' h)
    (halive : ∀ t l, s'.loc t = .inl l → l.2.job ≠ .abort true) (hend : ∀ t b s'', ¬ Conc.Step (liveServer c n kind pw y clock addr) t s' b s'') (hnw : NoWrap n s'.mem) :
    ∃ ds rs ps m, ds.map Did.who = h ∧ LiveStory y.version clock asks (shardIdx c n) (McWire.ofState (shardIdx c n) s) ds rs ps m ∧
      (∀ t, work t = none → ∃ l, s'.loc t = .inl l ∧ ps t = [] ∧ Reads l.2.sent (rs t) ∧ ∃ tail, Received (ws t) (chunks t).flatten (rs t).length tail) ∧
      ∀ t l, work t = some l → ∃ w, s'.loc t = .inr w ∧ w.shown.map Prod.fst = l ∧
        List.Forall₂ (fun e z => e.1 = z.1 ∧ (z.1.kind = .show → ShardShown (shardIdx c n) z.1 e.2 z.2)) (ds.filterMap (Did.choreOf t)) w.shown := by
  obtain ⟨cs, hcs⟩ := hcl.parsed hver
  have hl := he.lockInv hp
  have hok := thread_ok hv hu hn hA hR hs hclock hle hcs hwork hp he
  have ho := live_locked (ws := ws) (fun hx => thread_ok hv hu hn hA hR hs hclock hle hcs hwork hp hx) he
  have hrel : ∀ t, s'.rel t = false := by
    intro t
    cases hr : s'.rel t with
    | false => rfl
    | true =>
      exfalso
      cases hh : s'.held t with
      | nil => exact hend t _ _ (.next hr hh)
      | cons x xs => exact hend t _ _ (.release hr hh)
  -- whoever has locked a shard can go on
  have hfree : ∀ i, s'.lock i = 0 := by
    intro i
    by_contra hlk
    obtain ⟨u, b, hb⟩ := ho.owned _ hlk
    have hw := hl.word u _ b hb
    have hku := hok u
    rcases ho.mine u (hrel u) _ b hb with ⟨l, used', Q', b0, b1, b2⟩ | ⟨l, b0, b1⟩ | ⟨w, x, xs, b0, b1, rfl, rfl⟩
    · rw [b0] at hku
      have b4 : Goods Q' := by
        rcases hku with ⟨_, _, _, b5, b6, _⟩ | b5 | b5
        · rw [b1] at b5
          simp only [Out.val.injEq, Option.some.injEq, Job.mk.injEq] at b5
          obtain ⟨_, _, rfl⟩ := b5
          exact b6.1
        · rw [b1] at b5; cases b5
        · rw [b1] at b5; cases b5
      rcases live_act_client (c := c) (n := n) (kind := kind) (pw := pw) (y := y) (clock := clock) (addr := addr) b1 b4 with ⟨op, k, key', f', e1, e2, e3, ha'⟩ | ⟨l', ha'⟩
      · refine hend u _ _ (.access (hrel u) (by rw [b0]; exact ha') ?_)
        have hkey : i = shardIdx c n key' := by
          rcases b2 with ⟨_, key'', b5, b6⟩ | ⟨b5, b6⟩
          · rw [e1] at b5
            have := b5.1
            rw [e2] at this
            rw [b6, Option.some.inj this]
          · rcases b6 with b6 | ⟨_, _, key'', b6, b7, b8⟩
            · exact absurd ⟨b5, b6⟩ e3
            · rw [e1] at b6
              cases b6
              rw [e2] at b7
              rw [b8, Option.some.inj b7]
        rw [← hkey]
        cases b with
        | true => simpa [Conc.Prog.word] using hw
        | false => simpa using hb
      · exact hend u _ _ (.commit (hrel u) (by rw [b0]; exact ha'))
    · exact halive u l b0 b1
    · rw [b0] at hku
      rcases live_act_worker (c := c) (n := n) (kind := kind) (pw := pw) (y := y) (clock := clock) (addr := addr) hku b1 with ⟨f, ha⟩ | ⟨l', ha⟩
      · exact hend u _ _ (.access (hrel u) (by rw [b0]; exact ha) (by simpa using hb))
      · exact hend u _ _ (.commit (hrel u) (by rw [b0]; exact ha))
  have hidle : ∀ t l, s'.loc t = .inl l → l.2.job = .val none := by
    intro t l hlt
    have hk := hok t
    rw [hlt] at hk
    rcases hk with ⟨own, used, Q, a1, a2, _⟩ | a1 | a1
    · exfalso
      rcases live_act_client (c := c) (n := n) (kind := kind) (pw := pw) (y := y) (clock := clock) (addr := addr) a1 a2.1 with ⟨_, _, key, f, _, _, _, ha⟩ | ⟨l', ha⟩
      · exact hend t _ _ (.lock (hrel t) (by rw [hlt]; exact ha) (hfree _))
      · exact hend t _ _ (.commit (hrel t) (by rw [hlt]; exact ha))
    · exact a1
    · exact absurd a1 (halive t l hlt)
  have hdone : ∀ t w, s'.loc t = .inr w → w.todo = [] := by
    intro t w hlt
    have hk := hok t
    rw [hlt] at hk
    cases ht : w.todo with
    | nil => rfl
    | cons x xs =>
      exfalso
      rcases live_act_worker (c := c) (n := n) (kind := kind) (pw := pw) (y := y) (clock := clock) (addr := addr) hk ht with ⟨f, ha⟩ | ⟨l', ha⟩
      · exact hend t _ _ (.lock (hrel t) (by rw [hlt]; exact ha) (hfree _))
      · exact hend t _ _ (.commit (hrel t) (by rw [hlt]; exact ha))
  obtain ⟨_, _, h2⟩ := live_served hv hu hn hA hR hs hver hclock hle hcl hwork hp he
  obtain ⟨ds, rs, ps, m, g0, _, g1, _, g2, g3⟩ := h2 hnw
  refine ⟨ds, rs, ps, m, g0, g1, fun t ht => ?_, fun t l ht => ?_⟩
  · cases hlt : s'.loc t with
    | inl l =>
      obtain ⟨_, k1, k2⟩ := g2 t l hlt
      obtain ⟨k3, k4⟩ := k2 (hidle t l hlt)
      exact ⟨l, rfl, k3, k1, k4⟩
    | inr w =>
      have := (g3 t w hlt).1
      rw [ht] at this
      cases this
  · cases hlt : s'.loc t with
    | inl l' =>
      have := (g2 t l' hlt).1
      rw [ht] at this
      cases this
    | inr w =>
      obtain ⟨k1, k2⟩ := g3 t w hlt
      rw [ht, hdone t w hlt, List.append_nil] at k1
      exact ⟨w, rfl, (Option.some.inj k1).symm, k2⟩

/-! ### What is left to do -/

/-- What is left to do for thread `t`: as in C117, or its chores. -/
def liveLeft (p : Conc.Prog ((Nat × Loc) ⊕ Worker) Sh) (ws : Nat → List Bytes) (s : Conc.State ((Nat × Loc) ⊕ Worker) Sh) (t : Nat) : Left :=
  (match s.loc t with | .inl l => (ws t).length - l.2.done | .inr w => w.todo.length,
    match s.loc t with | .inl l => todoOf l.2 | .inr _ => none,
    match s.loc t with | .inl l => endsCall l.2 | .inr w => match w.got with | .val none => 1 | _ => 0,
    if s.rel t then 1 else 0,
    if s.rel t then (s.held t).length else match p.act (s.loc t) with
      | .access _ i _ => if i ∈ (s.held t).map (·.1) then 0 else 1
      | _ => 0)

/-- A step of thread `t` leaves less to do for it. -/
theorem live_step_left {start : Nat → (Nat × Loc) ⊕ Worker} {shs : Shards} (hp : (liveServer c n kind pw y clock addr).Ok)
    (hok : ∀ {s h}, Conc.Exec (liveServer c n kind pw y clock addr) start shs s h → ∀ t, ThreadOk (ws t) (s.loc t)) {h : List Nat} {s1 s2 : Conc.State ((Nat × Loc) ⊕ Worker) Sh}
    (he : Conc.Exec (liveServer c n kind pw y clock addr) start shs s1 h) {t : Nat} {b : Bool} (hst : Conc.Step (liveServer c n kind pw y clock addr) t s1 b s2) :
    Left.lt (liveLeft (liveServer c n kind pw y clock addr) ws s2 t) (liveLeft (liveServer c n kind pw y clock addr) ws s1 t) ∧
      ∀ u, u ≠ t → liveLeft (liveServer c n kind pw y clock addr) ws s2 u = liveLeft (liveServer c n kind pw y clock addr) ws s1 u := by
  have hl := he.lockInv hp
  have hok1 := hok he t
  cases hst with
  | @lock own i f hr ha hl0 =>
    refine ⟨?_, fun u hut => by simp only [liveLeft, update_of_ne hut]⟩
    have hno : i ∉ (s1.held t).map (·.1) := by
      intro hc
      obtain ⟨⟨j, b'⟩, h1, rfl⟩ := List.mem_map.1 hc
      exact hl.free j hl0 t b' h1
    simp only [liveLeft, ha, hr, update_self, Bool.false_eq_true, if_false, if_neg hno, List.map_cons, List.mem_cons, true_or, if_true]
    exact Prod.Lex.right _ (Prod.Lex.right _ (Prod.Lex.right _ (Prod.Lex.right _ Nat.zero_lt_one)))
  | @access own i f hr ha hal =>
    refine ⟨?_, fun u hut => by simp only [liveLeft, update_of_ne hut]⟩
    rcases live_access ha with ⟨l, g, e1, e2, e3⟩ | ⟨w, x, xs, e1, e2, e3, rfl, rfl, e5⟩
    · obtain ⟨used, op, k, key, a1, _, a3, rfl, a5⟩ := act_access e2
      have hd : ((g (s1.mem (shardIdx c n key))).1).2.done = l.2.done ∧ Less (todoOf ((g (s1.mem (shardIdx c n key))).1).2) (todoOf l.2) := by
        have ht : todoOf l.2 = some (.call op k) := by unfold todoOf; rw [a1]
        rw [a5, ht]
        cases onShard c (clock l.1 l.2.done).now (toOp op) (s1.mem (shardIdx c n key)) with
        | val r => exact ⟨rfl, ⟨_, rfl⟩⟩
        | hang => exact ⟨rfl, trivial⟩
        | ub => exact ⟨rfl, trivial⟩
        | abort w => exact ⟨rfl, trivial⟩
      unfold liveLeft
      simp only [update_self, e3, e1]
      rw [hd.1]
      exact Prod.Lex.right _ (Prod.Lex.left _ _ hd.2)
    · obtain ⟨g, e6, e7⟩ := e5 (s1.mem x.shard)
      unfold liveLeft
      simp only [update_self, e6, e1, e3]
      refine Prod.Lex.right _ (Prod.Lex.right _ (Prod.Lex.left _ _ ?_))
      exact Nat.zero_lt_one
  | @unlock i l _ ha _ => exact absurd ha (live_no_unlock _ _ _)
  | @commit z hr ha =>
    refine ⟨?_, fun u hut => by simp only [liveLeft, update_of_ne hut]⟩
    cases hlt : s1.loc t with
    | inl l =>
      rw [hlt] at ha hok1
      obtain ⟨l1, rfl, ha1⟩ := live_commit_client ha
      unfold liveLeft
      simp only [update_self, hlt]
      rcases act_commit ha1 with ⟨own, used, out, close, a1, a2⟩ | ⟨op, k, a1, a2⟩
      · have h1 : l.2.done + 1 ≤ (ws t).length := by
          rcases hok1 with ⟨_, _, _, _, _, b3⟩ | b1 | b1
          · exact b3
          · rw [a1] at b1; cases b1
          · rw [a1] at b1; cases b1
        have h2 : l1.2.done = l.2.done + 1 := by
          rw [a2]
          simp only []
          split
          · rfl
          · unfold advance
            split <;> rfl
        refine Prod.Lex.left _ _ ?_
        rw [h2]
        omega
      · have e1 : endsCall l.2 = 1 := by unfold endsCall; rw [a1]
        have e2 : endsCall l1.2 = 0 := by rw [a2]; rfl
        have e3 : todoOf l1.2 = todoOf l.2 := by unfold todoOf; rw [a1, a2]
        have e4 : l1.2.done = l.2.done := by rw [a2]
        rw [e1, e2, e3, e4]
        exact Prod.Lex.right _ (Prod.Lex.right _ (Prod.Lex.left _ _ Nat.zero_lt_one))
    | inr w =>
      rw [hlt] at ha
      obtain ⟨x, xs, l, e1, _, rfl⟩ := live_commit_worker ha
      unfold liveLeft
      simp only [update_self, hlt, e1, List.length_cons]
      exact Prod.Lex.left _ _ (Nat.lt_succ_self _)
  | @release x xs hr hx' =>
    refine ⟨?_, fun u hut => by simp only [liveLeft, update_of_ne hut]⟩
    simp only [liveLeft, update_self, hr, if_true, hx', List.length_cons]
    exact Prod.Lex.right _ (Prod.Lex.right _ (Prod.Lex.right _ (Prod.Lex.right _ (Nat.lt_succ_self _))))
  | @next hr hx' =>
    refine ⟨?_, fun u hut => by simp only [liveLeft, update_of_ne hut]⟩
    unfold liveLeft
    simp only [update_self, hr, if_true]
    exact Prod.Lex.right _ (Prod.Lex.right _ (Prod.Lex.right _ (Prod.Lex.left _ _ Nat.zero_lt_one)))

/-- A thread that can do nothing. -/
def Idle : (Nat × Loc) ⊕ Worker → Prop
  | .inl l => l.2.job = .val none
  | .inr w => w.todo = []

/-- A client that has sent nothing, and a worker without chores, do nothing. -/
theorem live_silent {shs : Shards} {h : List Nat} {s' : Conc.State ((Nat × Loc) ⊕ Worker) Sh}
    (he : Conc.Exec (liveServer c n kind pw y clock addr) (liveStart kind pw y clock chunks work) shs s' h) {t : Nat} (ht : (work t = none ∧ chunks t = []) ∨ work t = some []) :
    (Idle (s'.loc t) ∧ s'.rel t = false) ∧ ∀ b s'', ¬ Conc.Step (liveServer c n kind pw y clock addr) t s' b s'' := by
  have noacc : ∀ {z own i f}, Idle z → (liveServer c n kind pw y clock addr).act z ≠ .access own i f := by
    intro z own i f h1 ha
    rcases live_access ha with ⟨l, g, rfl, e2, _⟩ | ⟨w, x, xs, rfl, e2, _⟩
    · obtain ⟨_, _, _, _, a1, _⟩ := act_access e2
      have h1' : l.2.job = .val none := h1
      rw [h1'] at a1; cases a1
    · have h1' : w.todo = [] := h1
      rw [h1'] at e2; cases e2
  have key : ∀ {s1 : Conc.State ((Nat × Loc) ⊕ Worker) Sh}, Idle (s1.loc t) → s1.rel t = false → ∀ b s'', ¬ Conc.Step (liveServer c n kind pw y clock addr) t s1 b s'' := by
    intro s1 h1 h2 b s'' hst
    cases hst with
    | lock _ ha _ => exact noacc h1 ha
    | access _ ha _ => exact noacc h1 ha
    | unlock _ ha _ => exact absurd ha (live_no_unlock _ _ _)
    | commit _ ha =>
      cases hlt : s1.loc t with
      | inl l =>
        rw [hlt] at ha h1
        obtain ⟨_, _, ha1⟩ := live_commit_client ha
        have h1' : l.2.job = .val none := h1
        rcases act_commit ha1 with ⟨_, _, _, _, a1, _⟩ | ⟨_, _, a1, _⟩ <;> rw [h1'] at a1 <;> cases a1
      | inr w =>
        rw [hlt] at ha h1
        obtain ⟨x, xs, _, e1, _⟩ := live_commit_worker ha
        have h1' : w.todo = [] := h1
        rw [h1'] at e1; cases e1
    | release hr _ => rw [h2] at hr; cases hr
    | next hr _ => rw [h2] at hr; cases hr
  suffices hk : Idle (s'.loc t) ∧ s'.rel t = false from ⟨hk, key hk.1 hk.2⟩
  induction he with
  | start =>
    refine ⟨?_, rfl⟩
    simp only [Conc.start, liveStart]
    rcases ht with ⟨h1, h2⟩ | h1
    · rw [h1, h2]; rfl
    · rw [h1]; rfl
  | @step s1 s2 h u b hx hst ih =>
    by_cases hut : t = u
    · subst hut
      exact absurd hst (key ih.1 ih.2 _ _)
    · cases hst with
      | lock _ _ _ => exact ih
      | access _ _ _ => simpa only [update_of_ne hut] using ih
      | unlock _ ha _ => exact absurd ha (live_no_unlock _ _ _)
      | commit _ _ => simpa only [update_of_ne hut] using ih
      | release _ _ => exact ih
      | next _ _ => simpa only [update_of_ne hut] using ih

/-- What can happen next, after something. -/
theorem live_steps_wf (hv : c.Valid) (hu : c.usecas = true) (hn : 0 < n) {shs : Shards} (hA : AllInv c n shs) {now0 : Int} {s : Spec.State} (hR : R c n now0 shs s)
    (hs : ∀ k it, s.dict k = some it → it.value.length ≤ Wire.longest ∧ it.expires < 2 ^ 63) (hver : ∀ b ∈ y.version, 32 ≤ b)
    (hclock : ∀ t i, Fine (kind t) (clock t i)) (hle : ∀ t i, now0 ≤ (clock t i).now) (hcl : Clients pw kind asks chunks ws)
    (hwork : ∀ t l, work t = some l → ∀ x ∈ l, x.shard < n ∧ now0 ≤ x.now) (hp : (liveServer c n kind pw y clock addr).Ok)
    {N : Nat} (hfew : ∀ t, N ≤ t → (work t = none ∧ chunks t = []) ∨ work t = some []) :
    WellFounded fun s2 s1 : Conc.State ((Nat × Loc) ⊕ Worker) Sh =>
      (∃ h, Conc.Exec (liveServer c n kind pw y clock addr) (liveStart kind pw y clock chunks work) shs s1 h) ∧
        ∃ t b, Conc.Step (liveServer c n kind pw y clock addr) t s1 b s2 := by
  obtain ⟨cs, hcs⟩ := hcl.parsed hver
  refine Subrelation.wf (r := InvImage (Pi.Lex (· < ·) (fun {_ : Fin N} => Left.lt)) fun st (t : Fin N) => liveLeft (liveServer c n kind pw y clock addr) ws st t) ?_
    (InvImage.wf _ (Pi.Lex.wellFounded _ fun _ => left_wf))
  rintro s2 s1 ⟨⟨h, he⟩, t, b, hst⟩
  have ht : t < N := by
    by_contra hc
    exact (live_silent he (hfew t (by omega))).2 _ _ hst
  obtain ⟨h1, h2⟩ := live_step_left (ws := ws) hp (fun hx => thread_ok hv hu hn hA hR hs hclock hle hcs hwork hp hx) he hst
  exact ⟨⟨t, ht⟩, fun j hj => h2 j (Nat.ne_of_lt hj), h1⟩

/-- **C125.**  If only finitely many clients have sent something, and only finitely many threads have chores, there is no endless sequence of steps, whatever the order in which the threads run
(a failed attempt to lock is not a step). -/
theorem live_end (hv : c.Valid) (hu : c.usecas = true) (hn : 0 < n) {shs : Shards} (hA : AllInv c n shs) {now0 : Int} {s : Spec.State} (hR : R c n now0 shs s)
    (hs : ∀ k it, s.dict k = some it → it.value.length ≤ Wire.longest ∧ it.expires < 2 ^ 63) (hver : ∀ b ∈ y.version, 32 ≤ b)
    (hclock : ∀ t i, Fine (kind t) (clock t i)) (hle : ∀ t i, now0 ≤ (clock t i).now) (hcl : Clients pw kind asks chunks ws)
    (hwork : ∀ t l, work t = some l → ∀ x ∈ l, x.shard < n ∧ now0 ≤ x.now) (hp : (liveServer c n kind pw y clock addr).Ok)
    {N : Nat} (hfew : ∀ t, N ≤ t → (work t = none ∧ chunks t = []) ∨ work t = some []) :
    ¬ ∃ f : Nat → Conc.State ((Nat × Loc) ⊕ Worker) Sh, f 0 = Conc.start (liveStart kind pw y clock chunks work) shs ∧
      ∀ i, ∃ t b, Conc.Step (liveServer c n kind pw y clock addr) t (f i) b (f (i + 1)) := by
  rintro ⟨f, h0, hf⟩
  have hex : ∀ i, ∃ h, Conc.Exec (liveServer c n kind pw y clock addr) (liveStart kind pw y clock chunks work) shs (f i) h := by
    intro i
    induction i with
    | zero => exact ⟨[], h0 ▸ .start⟩
    | succ i ih =>
      obtain ⟨h, hx⟩ := ih
      obtain ⟨t, b, hst⟩ := hf i
      exact ⟨_, .step hx hst⟩
  have hwf := live_steps_wf hv hu hn hA hR hs hver hclock hle hcl hwork hp hfew
  have : ∀ st i, f i = st → False := by
    intro st
    induction st using hwf.induction with
    | _ st ih => exact fun i hi => ih (f (i + 1)) (hi ▸ ⟨hex i, hf i⟩) (i + 1) rfl
  exact this _ 0 rfl

/-- **C125.**  From wherever the threads have got, the server can go on until nothing can happen any more; and then (if it has not given up) every client has got all its replies, and all
chores are done. -/
theorem live_finish (hv : c.Valid) (hu : c.usecas = true) (hn : 0 < n) {shs : Shards} (hA : AllInv c n shs) {now0 : Int} {s : Spec.State} (hR : R c n now0 shs s)
    (hs : ∀ k it, s.dict k = some it → it.value.length ≤ Wire.longest ∧ it.expires < 2 ^ 63) (hver : ∀ b ∈ y.version, 32 ≤ b)
    (hclock : ∀ t i, Fine (kind t) (clock t i)) (hle : ∀ t i, now0 ≤ (clock t i).now) (hcl : Clients pw kind asks chunks ws)
    (hwork : ∀ t l, work t = some l → ∀ x ∈ l, x.shard < n ∧ now0 ≤ x.now) (hp : (liveServer c n kind pw y clock addr).Ok)
    {N : Nat} (hfew : ∀ t, N ≤ t → (work t = none ∧ chunks t = []) ∨ work t = some []) {h : List Nat} {s' : Conc.State ((Nat × Loc) ⊕ Worker) Sh}
    (he : Conc.Exec (liveServer c n kind pw y clock addr) (liveStart kind pw y clock chunks work) shs s' h) :
    ∃ h' s'', Conc.Exec (liveServer c n kind pw y clock addr) (liveStart kind pw y clock chunks work) shs s'' (h ++ h') ∧
      (∀ t b s3, ¬ Conc.Step (liveServer c n kind pw y clock addr) t s'' b s3) ∧
      ((∀ t l, s''.loc t = .inl l → l.2.job ≠ .abort true) → NoWrap n s''.mem →
        ∃ ds rs ps m, ds.map Did.who = h ++ h' ∧ LiveStory y.version clock asks (shardIdx c n) (McWire.ofState (shardIdx c n) s) ds rs ps m ∧
          (∀ t, work t = none → ∃ l, s''.loc t = .inl l ∧ ps t = [] ∧ Reads l.2.sent (rs t) ∧ ∃ tail, Received (ws t) (chunks t).flatten (rs t).length tail) ∧
          ∀ t l, work t = some l → ∃ w, s''.loc t = .inr w ∧ w.shown.map Prod.fst = l ∧
            List.Forall₂ (fun e z => e.1 = z.1 ∧ (z.1.kind = .show → ShardShown (shardIdx c n) z.1 e.2 z.2)) (ds.filterMap (Did.choreOf t)) w.shown) := by
  have hwf := live_steps_wf hv hu hn hA hR hs hver hclock hle hcl hwork hp hfew
  induction s' using hwf.induction generalizing h with
  | _ s' ih =>
    by_cases hend : ∀ t b s3, ¬ Conc.Step (liveServer c n kind pw y clock addr) t s' b s3
    · refine ⟨[], s', by rwa [List.append_nil], hend, fun halive hnw => ?_⟩
      rw [List.append_nil]
      exact live_answered hv hu hn hA hR hs hver hclock hle hcl hwork hp he halive hend hnw
    · simp only [not_forall, not_not] at hend
      obtain ⟨t, b, s3, hst⟩ := hend
      obtain ⟨h', s'', g1, g2, g3⟩ := ih s3 ⟨⟨h, he⟩, t, b, hst⟩ (.step he hst)
      have e : (if b = true then h ++ [t] else h) ++ h' = h ++ ((if b = true then [t] else []) ++ h') := by
        cases b <;> simp
      rw [e] at g1 g3
      exact ⟨_, s'', g1, g2, g3⟩

end Verif.Mix
