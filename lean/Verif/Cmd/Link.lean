import Mathlib.Tactic.Common
import Verif.Cmd.Props
import Verif.Cache.History

/-!
Commands on the model of the cache: every execution is an execution on the dictionary; tools for concrete cases.
-/

namespace Verif.Cmd

open Verif.Num Verif.Resp Verif.Map Verif.Shard Verif.Cache

theorem Prog.ok_map {α β : Type} (f : α → β) (p : Prog α) (h : p.ok) : (p.map f).ok := by
  induction p with
  | ret a => trivial
  | call c k ih => exact ⟨h.1, fun r => ih r (h.2 r)⟩

theorem ok_ite {α : Type} {q : Prop} [Decidable q] {p p' : Prog α} (h : p.ok) (h' : p'.ok) : (if q then p else p').ok := by
  split
  · exact h
  · exact h'

theorem zero_i64 : IsI64 0 := by unfold IsI64; omega

theorem execSET_ok (e : Env) (name key val : Bytes) (o : SetOpts) : (execSET e name key val o).ok := ⟨zero_i64, fun _ => trivial⟩

theorem cmdSET_ok (e : Env) (args : List Bytes) : (cmdSET e args).ok := by
  unfold cmdSET
  split
  · split
    · trivial
    · trivial
    · split
      · trivial
      · split
        · trivial
        · split
          · trivial
          · exact execSET_ok _ _ _ _ _
  · trivial

theorem mgetLoop_ok (e : Env) (kind : Kind) (ks : List Bytes) (out : List W) (n : Nat) : (mgetLoop e kind ks out n).ok := by
  induction ks generalizing out n with
  | nil => trivial
  | cons k ks ih => exact ⟨trivial, fun _ => ih _ _⟩

theorem delLoop_ok (e : Env) (ks : List Bytes) (d : Nat) : (delLoop e ks d).ok := by
  induction ks generalizing d with
  | nil => unfold delLoop; split <;> trivial
  | cons k ks ih => exact ⟨trivial, fun _ => ih _⟩

theorem existsLoop_ok (e : Env) (ks : List Bytes) (d : Nat) : (existsLoop e ks d).ok := by
  induction ks generalizing d with
  | nil => trivial
  | cons k ks ih => exact ⟨trivial, fun _ => ih _⟩

theorem touchLoop_ok (e : Env) (ks : List Bytes) (d : Nat) : (touchLoop e ks d).ok := by
  induction ks generalizing d with
  | nil => unfold touchLoop; split <;> trivial
  | cons k ks ih => exact ⟨trivial, fun _ => ih _⟩

theorem execIncr_ok (e : Env) (cmd key : Bytes) (d : Int) (decr uns : Bool) : (execIncr e cmd key d decr uns).ok := by
  unfold execIncr
  refine ⟨trivial, fun r => ?_⟩
  simp only []
  split
  · exact ok_ite trivial trivial
  · exact ok_ite trivial (ok_ite trivial ⟨zero_i64, fun r => ok_ite trivial (ok_ite trivial trivial)⟩)

theorem cmdAPPEND_ok (e : Env) (args : List Bytes) : (cmdAPPEND e args).ok := by
  unfold cmdAPPEND
  split
  · refine ⟨trivial, fun r => ?_⟩
    exact ok_ite (ok_ite trivial ⟨zero_i64, fun r => ok_ite trivial (ok_ite trivial trivial)⟩)
      (ok_ite trivial ⟨zero_i64, fun r => ok_ite trivial (ok_ite trivial trivial)⟩)
  · trivial

theorem evcommand_ok (e : Env) (pw : Bytes) (other : Fn → Env → List Bytes → Prog (List W)) (ho : ∀ fn e args, (other fn e args).ok)
    (args : List Bytes) (st : ConnSt) : (evcommand e pw other args st).ok := by
  unfold evcommand
  simp only []
  split
  · trivial
  · split
    · trivial
    · trivial
    · rename_i x _
      unfold call
      simp only []
      split
      all_goals first | (apply Prog.ok_map) | trivial
      · exact cmdSET_ok _ _
      · unfold cmdGET
        split
        · exact ⟨trivial, fun r => ok_ite trivial (ok_ite trivial trivial)⟩
        · trivial
      · unfold cmdDEL
        split
        · exact delLoop_ok _ _ _
        · trivial
      · unfold cmdMGET
        split
        · exact mgetLoop_ok _ _ _ _ _
        · trivial
      · unfold cmdTTL
        split
        · exact ⟨trivial, fun r => ok_ite trivial (ok_ite trivial trivial)⟩
        · trivial
      · unfold cmdEXPIRE
        split
        · split
          · trivial
          · split
            · trivial
            · refine ⟨trivial, fun r => ?_⟩
              exact ok_ite trivial (ok_ite trivial trivial)
        · trivial
      · unfold cmdSETEX
        split
        · split
          · trivial
          · split
            · trivial
            · split
              · trivial
              · exact execSET_ok _ _ _ _ _
        · trivial
      · unfold cmdEXISTS
        split
        · exact existsLoop_ok _ _ _
        · trivial
      · unfold cmdTOUCH
        split
        · exact touchLoop_ok _ _ _
        · trivial
      · unfold cmdINCRDECRBY
        split
        · simp only []
          split
          · split <;> trivial
          · exact execIncr_ok _ _ _ _ _ _
        · trivial
      · unfold cmdINCRDECRBY
        split
        · simp only []
          split
          · split <;> trivial
          · exact execIncr_ok _ _ _ _ _ _
        · trivial
      · unfold cmdINCRDECR
        split
        · exact execIncr_ok _ _ _ _ _ _
        · trivial
      · unfold cmdINCRDECR
        split
        · exact execIncr_ok _ _ _ _ _ _
        · trivial
      · exact cmdAPPEND_ok _ _
      · exact cmdAPPEND_ok _ _
      · exact ho _ _ _

/-- Every command executed on the model of the cache ends, without undefined behaviour of the cache, and does to the dictionary one of the
things described by `Executes` (unless `xmalloc` gives up, or a distance counter has wrapped: C01). -/
theorem command_on_cache {c : Ctx} (hv : c.Valid) {n : Nat} (hn : 0 < n) (mems : Nat → Nat → Mem) (oom : Bool) (e : Env)
    (h0 : 0 < e.now) (h1 : IsI64 e.now) (hmem : oom = false → ∀ i j, mems i j = ⟨true, true, true⟩)
    (hent : ∀ i j, (mems i j).ent = true) (htbl : ∀ i j, (mems i j).tbl = true)
    (pw : Bytes) (other : Fn → Env → List Bytes → Prog (List W)) (ho : ∀ fn e args, (other fn e args).ok)
    (args : List Bytes) (shs : Shards) (h : AllInv c n shs) :
    (∃ out st' shs', (evcommand e pw other args ⟨true⟩).exec c n mems e.now 0 shs = .val ((out, st'), shs') ∧ AllInv c n shs' ∧
      (NoWrap n shs' → NoWrap n shs ∧ ∀ now0 s, now0 ≤ e.now → R c n now0 shs s → ∃ s', R c n e.now shs' s' ∧
        Executes ⟨c.usecas, c.noevict, shardIdx c n⟩ alone oom e pw other args s out s')) ∨
    (evcommand e pw other args ⟨true⟩).exec c n mems e.now 0 shs = .abort true := by
  rcases prog_refines hv hn mems oom e.now h0 h1 hmem hent htbl _ (evcommand_ok e pw other ho args ⟨true⟩) 0 shs h with
    ⟨⟨out, st'⟩, shs', h1, h2, h3⟩ | h1
  · left
    refine ⟨out, st', shs', h1, h2, fun hnw => ⟨(h3 hnw).1, fun now0 s hle hR => ?_⟩⟩
    obtain ⟨s', h4, h5⟩ := (h3 hnw).2 now0 s hle hR
    exact ⟨s', h4, st', h5⟩
  · exact Or.inr h1

theorem Executes.mono {env : Spec.Env} {I J : Spec.State → Spec.State → Prop} (hIJ : ∀ s s', I s s' → J s s') {oom : Bool} {e : Env} {pw : Bytes}
    {other : Fn → Env → List Bytes → Prog (List W)} {args : List Bytes} {s s' : Spec.State} {out : List W}
    (h : Executes env I oom e pw other args s out s') : Executes env J oom e pw other args s out s' := by
  obtain ⟨st', h⟩ := h
  exact ⟨st', h.mono hIJ⟩

/-! ### Concrete cases -/

/-- The functions that are not modelled do nothing in the concrete cases. -/
def noOther : Fn → Env → List Bytes → Prog (List W) := fun _ _ _ => .ret []

/-- Commands at given times on a cache with all allocations succeeding; gives the replies. -/
def session (c : Ctx) (n : Nat) : List (Env × List Bytes) → Shards → Out (List (List W) × Shards)
  | [], shs => .val ([], shs)
  | x :: l, shs =>
    ((evcommand x.1 [] noOther x.2 ⟨true⟩).exec c n (fun _ _ => ⟨true, true, true⟩) x.1.now 0 shs).bind fun r =>
      (session c n l r.2).bind fun q => .val (r.1.1 :: q.1, q.2)

/-- The replies of a session on a new cache. -/
def replies (c : Ctx) (n : Nat) (l : List (Env × List Bytes)) : Option (List (List W)) :=
  match session c n l (newCache c) with
  | .val r => some r.1
  | _ => none

/-- A cache with four shards. -/
def ctx4 : Ctx := ⟨true, false, false, true, 75, fun k => if k = [2] then 2 ^ 32 + 63 else 63⟩

/-- At time `t` (and Unix time `t` + 10^18), on a connection with protocol `p`. -/
def at_ (p : Proto) (t : Int) : Env := ⟨t, t + 10 ^ 18, false, p⟩

theorem nowrap_back {c : Ctx} (hv : c.Valid) {n : Nat} (hn : 0 < n) (l : List (Env × List Bytes)) (shs : Shards)
    (h : AllInv c n shs) (hpos : ∀ y ∈ l, 0 < y.1.now ∧ IsI64 y.1.now) {rs : List (List W)} {shs' : Shards}
    (hs : session c n l shs = .val (rs, shs')) (hnw : NoWrap n shs') : NoWrap n shs := by
  induction l generalizing shs rs with
  | nil =>
    simp only [session, Out.val.injEq, Prod.mk.injEq] at hs
    rw [hs.2]; exact hnw
  | cons y l ih =>
    simp only [session] at hs
    obtain ⟨r, h1, h2⟩ := out_bind_val hs
    obtain ⟨q, h3, h4⟩ := out_bind_val h2
    simp only [Out.val.injEq, Prod.mk.injEq] at h4
    obtain ⟨rfl, rfl⟩ := h4
    obtain ⟨hp1, hp2⟩ := hpos y (by simp)
    rcases command_on_cache hv hn (fun _ _ => ⟨true, true, true⟩) false y.1 hp1 hp2 (fun _ _ _ => rfl) (fun _ _ => rfl) (fun _ _ => rfl) []
      noOther (fun _ _ _ => trivial) y.2 shs h with ⟨out, st', shs1, a1, a2, a3⟩ | a1
    · rw [a1] at h1
      simp only [Out.val.injEq] at h1
      subst h1
      exact (a3 (ih shs1 a2 (fun z hz => hpos z (by simp [hz])) h3)).1
    · rw [a1] at h1
      simp at h1

theorem session_executes {c : Ctx} (hv : c.Valid) {n : Nat} (hn : 0 < n) (l : List (Env × List Bytes)) (x : Env × List Bytes) (shs : Shards)
    (h : AllInv c n shs) (now0 : Int) (s : Spec.State) (hR : R c n now0 shs s) (hpos : ∀ y ∈ l ++ [x], 0 < y.1.now ∧ IsI64 y.1.now)
    (hmono : (l ++ [x]).Pairwise fun a b => a.1.now ≤ b.1.now) (hle : ∀ y ∈ l ++ [x], now0 ≤ y.1.now) {rs : List (List W)} {shs' : Shards}
    (hs : session c n (l ++ [x]) shs = .val (rs, shs')) (hnw : NoWrap n shs') :
    NoWrap n shs ∧ ∃ s1 s2 out, rs.getLast? = some out ∧ R c n x.1.now shs' s2 ∧
      Executes ⟨c.usecas, c.noevict, shardIdx c n⟩ alone false x.1 [] noOther x.2 s1 out s2 := by
  induction l generalizing shs now0 s rs with
  | nil =>
    simp only [List.nil_append, session] at hs
    obtain ⟨r, h1, h2⟩ := out_bind_val hs
    simp only [Out.bind, Out.val.injEq, Prod.mk.injEq] at h2
    obtain ⟨rfl, rfl⟩ := h2
    obtain ⟨hp1, hp2⟩ := hpos x (by simp)
    rcases command_on_cache hv hn (fun _ _ => ⟨true, true, true⟩) false x.1 hp1 hp2 (fun _ _ _ => rfl) (fun _ _ => rfl) (fun _ _ => rfl) []
      noOther (fun _ _ _ => trivial) x.2 shs h with ⟨out, st', shs', a1, a2, a3⟩ | a1
    · rw [a1] at h1
      simp only [Out.val.injEq] at h1
      subst h1
      obtain ⟨b1, b2⟩ := a3 hnw
      obtain ⟨s2, b3, b4⟩ := b2 now0 s (hle x (by simp)) hR
      exact ⟨b1, s, s2, out, rfl, b3, b4⟩
    · rw [a1] at h1
      simp at h1
  | cons y l ih =>
    simp only [List.cons_append, session] at hs
    obtain ⟨r, h1, h2⟩ := out_bind_val hs
    obtain ⟨q, h3, h4⟩ := out_bind_val h2
    simp only [Out.val.injEq, Prod.mk.injEq] at h4
    obtain ⟨rfl, rfl⟩ := h4
    obtain ⟨hp1, hp2⟩ := hpos y (by simp)
    obtain ⟨hm1, hm2⟩ := List.pairwise_cons.1 hmono
    rcases command_on_cache hv hn (fun _ _ => ⟨true, true, true⟩) false y.1 hp1 hp2 (fun _ _ _ => rfl) (fun _ _ => rfl) (fun _ _ => rfl) []
      noOther (fun _ _ _ => trivial) y.2 shs h with ⟨out, st', shs1, a1, a2, a3⟩ | a1
    · rw [a1] at h1
      simp only [Out.val.injEq] at h1
      subst h1
      have hlast : NoWrap n shs1 := by
        -- the overflow marks never go away
        by_contra hc
        exact hc (nowrap_back hv hn (l ++ [x]) shs1 a2 (fun z hz => hpos z (by simp only [List.cons_append, List.mem_cons]; exact Or.inr hz)) h3 hnw)
      obtain ⟨b1, b2⟩ := a3 hlast
      obtain ⟨s2, b3, b4⟩ := b2 now0 s (hle y (by simp)) hR
      obtain ⟨_, s3, s4, out', c1, c2, c3⟩ := ih shs1 a2 y.1.now s2 b3 (fun z hz => hpos z (by simp at hz ⊢; tauto)) hm2
        (fun z hz => hm1 z hz) h3
      refine ⟨b1, s3, s4, out', ?_, c2, c3⟩
      rw [List.getLast?_cons]
      rw [c1]; rfl
    · rw [a1] at h1
      simp at h1

/-- The last command of a session on a new cache is an execution on some dictionary. -/
theorem last_executes {c : Ctx} (hv : c.Valid) {n : Nat} (hn : 0 < n) (l : List (Env × List Bytes)) (x : Env × List Bytes)
    (hpos : ∀ y ∈ l ++ [x], 0 < y.1.now ∧ IsI64 y.1.now) (hmono : (l ++ [x]).Pairwise fun a b => a.1.now ≤ b.1.now)
    {out : List W} (hs : (session c n (l ++ [x]) (newCache c)).test (fun r => r.1.getLast? = some out ∧ noWrapB n r.2 = true) = true) :
    ∃ s s', Executes ⟨c.usecas, c.noevict, shardIdx c n⟩ alone false x.1 [] noOther x.2 s out s' := by
  obtain ⟨⟨rs, shs'⟩, h1, h2, h3⟩ := Out.of_test hs
  obtain ⟨_, s, s', out', a1, _, a3⟩ := session_executes hv hn l x (newCache c) (allInv_new hv n) 0 _ (R_new c n 0) hpos hmono
    (fun y hy => by have := (hpos y hy).1; omega) h1 (noWrapB_iff.1 h3)
  rw [h2] at a1
  simp only [Option.some.injEq] at a1
  subst a1
  exact ⟨s, s', a3⟩

theorem ctx4_valid : ctx4.Valid := by unfold Ctx.Valid; decide

/-- `SET k 41 EX 10`, then `Incr k`: a case of `incr_exact_partial` with an old value. -/
example : ∃ s s', Executes ⟨true, false, shardIdx ctx4 4⟩ (held ⟨true, false, shardIdx ctx4 4⟩ [107]) false (at_ .resp 1000) [] noOther
      [[73, 110, 99, 114], [107]] s [.int 42] s' ∧ IncrArgs [[73, 110, 99, 114], [107]] false false [107] [49] ∧ NumText false [52, 49] 41 := by
  obtain ⟨s, s', h⟩ := last_executes ctx4_valid (by decide : 0 < 4)
    [(at_ .resp 1000, [[115, 101, 116], [107], [52, 49], [101, 120], [49, 48]])] (at_ .resp 1000, [[73, 110, 99, 114], [107]])
    (by simp only [at_, IsI64]; decide) (by simp) (out := [.int 42]) (by decide +kernel)
  refine ⟨s, s', h.mono (alone_held _ _), ⟨_, Or.inr ⟨rfl, (spells_iff _ _ (by decide)).2 (by decide), rfl⟩⟩, ?_⟩
  exact Or.inr ⟨by decide, ⟨[], [], [52, 49], rfl, by decide, by decide, by decide, Or.inl ⟨Or.inl rfl, by decide⟩⟩, by unfold InR; decide⟩

/-- **C45, negation** for memcache connections (the parser turns `decr k 1` into `udecrby k 1`): decrementing 0 stores 2^64-1 and reports no error.
(memcached itself stops at 0.) -/
theorem memcache_decr_wraps :
    replies ctx4 4 [(at_ .memcache 1000, [[115, 101, 116], [107], [48]]),
      (at_ .memcache 1000, [[117, 100, 101, 99, 114, 98, 121], [107], [49]]),
      (at_ .resp 1000, [[103, 101, 116], [107]])] =
    some [[.raw [83, 84, 79, 82, 69, 68, 13, 10]],
      [.raw [49, 56, 52, 52, 54, 55, 52, 52, 48, 55, 51, 55, 48, 57, 53, 53, 49, 54, 49, 53], .raw [13, 10]],
      [.bulk [49, 56, 52, 52, 54, 55, 52, 52, 48, 55, 51, 55, 48, 57, 53, 53, 49, 54, 49, 53]]] := by
  decide +kernel

end Verif.Cmd
