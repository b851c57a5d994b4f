import Mathlib.Tactic.Common
import Verif.Mix.Props
import Verif.Conc.Deadlock

/-!
C116: clients of RESP, memcache, HTTP and Postgres do not block each other for ever.
-/

namespace Verif.Mix

open Verif.Num Verif.Resp Verif.Cmd Verif.Cache Verif.Shard Verif.Map Function
open Verif.Many (Shape Goods On onShard callKey good_key)

variable {c : Ctx} {n : Nat} {kind : Nat → Kind} {pw : Bytes} {y : Sys} {clock : Nat → Nat → Env} {addr : Nat → Nat}
  {asks : Nat → List Ask} {chunks : Nat → List Bytes} {cs : Nat → List Req} {ws : Nat → List Bytes}

/-- Any command in execution makes calls on keys; with a batch, on one key. -/
theorem job_on (hv : c.Valid) (hu : c.usecas = true) (hn : 0 < n) {shs : Shards} (hA : AllInv c n shs) {now0 : Int} {s : Spec.State} (hR : R c n now0 shs s)
    (hs : ∀ k it, s.dict k = some it → it.value.length ≤ Wire.longest ∧ it.expires < 2 ^ 63) (hclock : ∀ t i, Fine (kind t) (clock t i)) (hle : ∀ t i, now0 ≤ (clock t i).now)
    (hcl : Parsed pw y kind asks chunks cs ws) (hp : (server c n kind pw y clock addr).Ok) {h : List Nat} {s' : Conc.State (Nat × Loc) Sh}
    (he : Conc.Exec (server c n kind pw y clock addr) (fun t => (t, opened (kind t) pw y (clock t) (chunks t))) shs s' h) (t : Nat) :
    (∃ own used Q, (s'.loc t).2.job = .val (some ⟨own, used, Q⟩) ∧ Shape own Q) ∨ (s'.loc t).2.job = .val none ∨ (s'.loc t).2.job = .abort true := by
  obtain ⟨locA, memA, hser, hsim⟩ := Conc.exec_sim hp no_unlock he
  obtain ⟨h1, h2, _⟩ := serial_inv hv hu hn hA hR (agr_ofState hs _) hclock hle hcl hser
  obtain ⟨g1, g2⟩ := h2 t
  cases hrel : s'.rel t with
  | true =>
    rw [(hsim.rel t hrel).1]
    rcases g2 with hj | ⟨args, P, b1, b2, b3, _⟩
    · exact Or.inr (Or.inl hj)
    · exact Or.inl ⟨_, _, _, b2, b3⟩
  | false =>
    obtain ⟨m1, hrun, _⟩ := hsim.run t hrel
    obtain ⟨⟨u, l⟩, hl⟩ : ∃ x, locA t = x := ⟨_, rfl⟩
    rw [hl] at g1 g2 hrun
    simp only [] at g1 g2
    subst g1
    rcases g2 with hidle | ⟨args, P, b1, b2, b3, _⟩
    · obtain ⟨e1, _⟩ := run_idle hidle hrun
      rw [e1]
      exact Or.inr (Or.inl hidle)
    · obtain ⟨_, _, _, d4⟩ := run_part hv hn (hclock u l.done) b2 b3 h1 hrun
      rcases d4 with ⟨_, _, _, d4, d5, _⟩ | d4
      · exact Or.inl ⟨_, _, _, d4, d5⟩
      · exact Or.inr (Or.inr d4)

/-- Why this shard is locked: it is that of the key of the batch; the call is done; or it is about to be done. -/
def Why (c : Ctx) (n : Nat) (i : Nat) (b used : Bool) (Q : Prog (Bytes × Bool)) : Prop :=
  (b = true ∧ ∃ key, On key Q ∧ i = shardIdx c n key) ∨ (b = false ∧ (used = true ∨ ∃ op k key, Q = .call op k ∧ callKey op = some key ∧ i = shardIdx c n key))

/-- A locked shard is that of the command in execution, and locks have owners. -/
structure Locked (c : Ctx) (n : Nat) (s : Conc.State (Nat × Loc) Sh) : Prop where
  mine : ∀ t, s.rel t = false → ∀ i b, (i, b) ∈ s.held t → (∃ used Q, (s.loc t).2.job = .val (some ⟨b, used, Q⟩) ∧ Why c n i b used Q) ∨
    (s.loc t).2.job = .abort true
  owned : ∀ i, s.lock i ≠ 0 → ∃ t b, (i, b) ∈ s.held t

theorem locked_exec (hv : c.Valid) (hu : c.usecas = true) (hn : 0 < n) {shs : Shards} (hA : AllInv c n shs) {now0 : Int} {s : Spec.State} (hR : R c n now0 shs s)
    (hs : ∀ k it, s.dict k = some it → it.value.length ≤ Wire.longest ∧ it.expires < 2 ^ 63) (hclock : ∀ t i, Fine (kind t) (clock t i)) (hle : ∀ t i, now0 ≤ (clock t i).now)
    (hcl : Parsed pw y kind asks chunks cs ws) (hp : (server c n kind pw y clock addr).Ok) {h : List Nat} {s' : Conc.State (Nat × Loc) Sh}
    (he : Conc.Exec (server c n kind pw y clock addr) (fun t => (t, opened (kind t) pw y (clock t) (chunks t))) shs s' h) : Locked c n s' := by
  induction he with
  | start => exact ⟨by simp [Conc.start], by simp [Conc.start]⟩
  | @step s1 s2 h t b hx hst ih =>
    have hon := job_on hv hu hn hA hR hs hclock hle hcl hp hx
    have hon' := job_on hv hu hn hA hR hs hclock hle hcl hp (.step hx hst)
    cases hst with
    | @lock own i f hr ha hl0 =>
      obtain ⟨used, op, k, key, a1, _, a3, rfl, _⟩ := act_access ha
      constructor
      · intro u hu j b' hm
        by_cases hut : u = t
        · subst hut
          simp only [update_self, List.mem_cons, Prod.mk.injEq] at hm
          rcases hm with ⟨rfl, rfl⟩ | hm
          · left
            refine ⟨used, _, a1, ?_⟩
            cases b' with
            | false => exact Or.inr ⟨rfl, Or.inr ⟨op, k, key, rfl, a3, rfl⟩⟩
            | true =>
              left
              rcases hon u with ⟨_, _, _, b1, b2⟩ | b1 | b1
              · rw [a1] at b1
                simp only [Out.val.injEq, Option.some.injEq, Job.mk.injEq] at b1
                obtain ⟨b3, _, rfl⟩ := b1
                obtain ⟨key', b4, _⟩ := b2.2 b3.symm
                have : key' = key := by
                  have := b4.1
                  rw [a3] at this
                  exact (Option.some.inj this).symm
                exact ⟨rfl, key, this ▸ b4, rfl⟩
              · rw [a1] at b1; cases b1
              · rw [a1] at b1; cases b1
          · exact ih.mine u hu j b' hm
        · simp only [update_of_ne hut] at hm
          exact ih.mine u hu j b' hm
      · intro j hj
        by_cases hji : j = shardIdx c n key
        · subst hji; exact ⟨t, own, by simp⟩
        · simp only [update_of_ne hji] at hj
          obtain ⟨u, b', hb⟩ := ih.owned j hj
          refine ⟨u, b', ?_⟩
          by_cases hut : u = t
          · subst hut; simp [hb]
          · simp only [update_of_ne hut]; exact hb
    | @access own i f hr ha hal =>
      obtain ⟨used, op, k, key, a1, _, a3, rfl, a5⟩ := act_access ha
      constructor
      · intro u hu j b' hm
        by_cases hut : u = t
        · subst hut
          have hu' := hon' u
          simp only [update_self] at hu' ⊢
          rcases ih.mine u hr j b' hm with ⟨used', Q, b1, b2⟩ | b1
          · rw [a1] at b1
            simp only [Out.val.injEq, Option.some.injEq, Job.mk.injEq] at b1
            obtain ⟨rfl, rfl, rfl⟩ := b1
            rw [a5] at hu' ⊢
            cases hr' : onShard c (clock (s1.loc u).1 (s1.loc u).2.done).now (toOp op) (s1.mem (shardIdx c n key)) with
            | val r =>
              left
              refine ⟨true, _, rfl, ?_⟩
              rcases b2 with ⟨b2, key', b3, b4⟩ | ⟨b2, _⟩
              · exact Or.inl ⟨b2, key', b3.2 _, b4⟩
              · exact Or.inr ⟨b2, Or.inl rfl⟩
            | hang => rw [hr'] at hu'; rcases hu' with ⟨_, _, _, hc, _⟩ | hc | hc <;> cases hc
            | ub => rw [hr'] at hu'; rcases hu' with ⟨_, _, _, hc, _⟩ | hc | hc <;> cases hc
            | abort w =>
              rw [hr'] at hu'
              rcases hu' with ⟨_, _, _, hc, _⟩ | hc | hc
              · cases hc
              · cases hc
              · exact Or.inr hc
          · rw [a1] at b1; cases b1
        · simp only [update_of_ne hut]
          exact ih.mine u hu j b' hm
      · exact ih.owned
    | @unlock i l _ ha _ => exact absurd ha (no_unlock _ _ _)
    | @commit l hr ha =>
      constructor
      · intro u hu j b' hm
        by_cases hut : u = t
        · subst hut; simp at hu
        · simp only [update_of_ne hut] at hu ⊢
          exact ih.mine u hu j b' hm
      · exact ih.owned
    | @release x xs hr hx' =>
      constructor
      · intro u hu j b' hm
        by_cases hut : u = t
        · subst hut; simp only [] at hu; rw [hr] at hu; simp at hu
        · simp only [update_of_ne hut] at hm
          exact ih.mine u hu j b' hm
      · intro j hj
        by_cases hji : j = x.1
        · subst hji; simp at hj
        · simp only [update_of_ne hji] at hj
          obtain ⟨u, b', hb⟩ := ih.owned j hj
          refine ⟨u, b', ?_⟩
          by_cases hut : u = t
          · subst hut
            rw [hx'] at hb
            rcases List.mem_cons.1 hb with hb | hb
            · exact absurd (by rw [← hb]) hji
            · simp [hb]
          · simp only [update_of_ne hut]; exact hb
    | @next hr hx' =>
      constructor
      · intro u hu j b' hm
        by_cases hut : u = t
        · subst hut
          simp only [] at hm
          rw [hx'] at hm; simp at hm
        · simp only [update_of_ne hut] at hu
          exact ih.mine u hu j b' hm
      · exact ih.owned

/-- A command in execution can go on if its lock is free or its own. -/
theorem act_some (l : Nat × Loc) {own used : Bool} {Q : Prog (Bytes × Bool)} (hj : l.2.job = .val (some ⟨own, used, Q⟩)) (hg : Goods Q) :
    (∃ op k key f, Q = .call op k ∧ callKey op = some key ∧ ¬ (own = false ∧ used = true) ∧ (server c n kind pw y clock addr).act l = .access own (shardIdx c n key) f) ∨
      ∃ l', (server c n kind pw y clock addr).act l = .commit l' := by
  obtain ⟨t, l⟩ := l
  simp only [] at hj
  simp only [server, step, hj]
  cases Q with
  | ret a =>
    obtain ⟨out, close⟩ := a
    right
    dsimp only
    by_cases hc : close = true ∨ (kind t).once = true
    · simp only [if_pos hc]; exact ⟨_, rfl⟩
    · simp only [if_neg hc]; exact ⟨_, rfl⟩
  | call op k =>
    dsimp only
    by_cases hc : own = false ∧ used = true
    · simp only [if_pos hc]; exact Or.inr ⟨_, rfl⟩
    · obtain ⟨key, hk⟩ := good_key hg.1
      simp only [if_neg hc, hk]
      exact Or.inl ⟨op, k, key, _, rfl, hk, hc, rfl⟩

/-- **C116.**  If nothing can happen any more (and the process has not given up), then every client has got the replies to all commands that have come
completely: clients of any protocols never wait for each other in a circle. -/
theorem all_answered (hv : c.Valid) (hu : c.usecas = true) (hn : 0 < n) {shs : Shards} (hA : AllInv c n shs) {now0 : Int} {s : Spec.State} (hR : R c n now0 shs s)
    (hs : ∀ k it, s.dict k = some it → it.value.length ≤ Wire.longest ∧ it.expires < 2 ^ 63) (hclock : ∀ t i, Fine (kind t) (clock t i)) (hle : ∀ t i, now0 ≤ (clock t i).now)
    (hver : ∀ b ∈ y.version, 32 ≤ b) (hcl : Clients pw kind asks chunks ws) (hp : (server c n kind pw y clock addr).Ok) {h : List Nat} {s' : Conc.State (Nat × Loc) Sh}
    (he : Conc.Exec (server c n kind pw y clock addr) (fun t => (t, opened (kind t) pw y (clock t) (chunks t))) shs s' h)
    (halive : ∀ t, (s'.loc t).2.job ≠ .abort true) (hend : ∀ t b s'', ¬ Conc.Step (server c n kind pw y clock addr) t s' b s'') (hnw : NoWrap n s'.mem) :
    ∃ evs rs m, evs.map (·.who) = h ∧ Story y.version clock asks (McWire.ofState (shardIdx c n) s) evs rs (fun _ => []) m ∧
      ∀ t, Reads (s'.loc t).2.sent (rs t) ∧ ∃ tail, Received (ws t) (chunks t).flatten (rs t).length tail := by
  obtain ⟨cs, hcs⟩ := hcl.parsed hver
  have hl := he.lockInv hp
  have ho := locked_exec hv hu hn hA hR hs hclock hle hcs hp he
  have hrel : ∀ t, s'.rel t = false := by
    intro t
    cases hr : s'.rel t with
    | false => rfl
    | true =>
      exfalso
      cases hh : s'.held t with
      | nil => exact hend t _ _ (.next hr hh)
      | cons x xs => exact hend t _ _ (.release hr hh)
  have hjob := job_on hv hu hn hA hR hs hclock hle hcs hp he
  have hidle : ∀ t, (s'.loc t).2.job = .val none := by
    intro t
    rcases hjob t with ⟨own, used, Q, a1, a2⟩ | a1 | a1
    · exfalso
      rcases act_some (c := c) (n := n) (kind := kind) (pw := pw) (y := y) (clock := clock) (addr := addr) _ a1 a2.1 with ⟨_, _, key, f, _, _, _, ha⟩ | ⟨l', ha⟩
      · by_cases hlk : s'.lock (shardIdx c n key) = 0
        · exact hend t _ _ (.lock (hrel t) ha hlk)
        · obtain ⟨u, b, hb⟩ := ho.owned _ hlk
          rcases ho.mine u (hrel u) _ b hb with ⟨used', Q', b1, b2⟩ | b1
          · have b4 : Goods Q' := by
              rcases hjob u with ⟨_, _, _, b5, b6⟩ | b5 | b5
              · rw [b1] at b5
                simp only [Out.val.injEq, Option.some.injEq, Job.mk.injEq] at b5
                obtain ⟨_, _, rfl⟩ := b5
                exact b6.1
              · rw [b1] at b5; cases b5
              · rw [b1] at b5; cases b5
            rcases act_some (c := c) (n := n) (kind := kind) (pw := pw) (y := y) (clock := clock) (addr := addr) _ b1 b4 with ⟨op, k, key', f', e1, e2, e3, ha'⟩ | ⟨l', ha'⟩
            · refine hend u _ _ (.access (hrel u) ha' ?_)
              have hkey : shardIdx c n key = shardIdx c n key' := by
                rcases b2 with ⟨_, key'', b5, b6⟩ | ⟨b5, b6⟩
                · rw [e1] at b5
                  have := b5.1
                  rw [e2] at this
                  rw [b6, Option.some.inj this]
                · rcases b6 with b6 | ⟨_, _, key'', b6, b7, b8⟩
                  · exact absurd ⟨b5, b6⟩ e3
                  · rw [e1] at b6
                    cases b6
                    rw [e2] at b7
                    rw [b8, Option.some.inj b7]
              rw [← hkey]
              have hw := hl.word u _ b hb
              cases b with
              | true => simpa [Conc.Prog.word] using hw
              | false => simpa using hb
            · exact hend u _ _ (.commit (hrel u) ha')
          · exact halive u b1
      · exact hend t _ _ (.commit (hrel t) ha)
    · exact a1
    · exact absurd a1 (halive t)
  obtain ⟨_, h2⟩ := all_served hv hu hn hA hR hs hver hclock hle hcl hp he
  obtain ⟨evs, rs, ps, m, g0, g1, g2⟩ := h2 hnw
  have : ps = fun _ => [] := funext fun t => ((g2 t).2 (hidle t)).1
  subst this
  exact ⟨evs, rs, m, g0, g1, fun t => ⟨(g2 t).1, ((g2 t).2 (hidle t)).2⟩⟩

end Verif.Mix
