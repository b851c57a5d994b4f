import Verif.Cache.Effect

/-!
C04 (expiry), C15 (notifications) and C16 (shards).

The statements speak about `view`: the entry found under a key by looking through every bucket of the shard
of the key, without hashing or probing.  `NoWrap` of the state after the calls is the scope excluded by C10.
-/

namespace Verif.Cache

open Verif.Map Verif.Shard Function

/-! ### C15 -/

/-- A call with its circumstances. -/
structure Call where
  op : Op
  mem : Nat → Mem
  now : Int

/-- Run calls one after the other and collect what they return. -/
def runCalls (c : Ctx) (n : Nat) : List Call → Shards → Out (Shards × List CRes)
  | [], shs => .val (shs, [])
  | x :: l, shs =>
    (exec c n x.mem x.now x.op shs).bind fun r =>
      (runCalls c n l r.shs).bind fun (s, rs) => .val (s, r :: rs)

theorem out_bind_val {α β : Type} {x : Out α} {f : α → Out β} {b : β} (h : x.bind f = .val b) :
    ∃ a, x = .val a ∧ f a = .val b := by
  cases x with
  | val a => exact ⟨a, rfl, h⟩
  | hang => simp [Out.bind] at h
  | ub => simp [Out.bind] at h
  | abort w => simp [Out.bind] at h

theorem runCalls_cons {c : Ctx} {n : Nat} {x : Call} {l : List Call} {shs shs' : Shards} {rs : List CRes}
    (h : runCalls c n (x :: l) shs = .val (shs', rs)) :
    ∃ r rs', exec c n x.mem x.now x.op shs = .val r ∧ runCalls c n l r.shs = .val (shs', rs') ∧ rs = r :: rs' := by
  obtain ⟨r, hr, h⟩ := out_bind_val h
  obtain ⟨⟨s, rs'⟩, h1, h2⟩ := out_bind_val h
  simp only [Out.val.injEq, Prod.mk.injEq] at h2
  obtain ⟨rfl, rfl⟩ := h2
  exact ⟨r, rs', hr, h1, rfl⟩

theorem runCalls_reach {c : Ctx} {n : Nat} {l : List Call} {shs shs' : Shards} {rs : List CRes} (h : Reach c n shs)
    (hok : ∀ x ∈ l, OpOk x.mem x.now x.op) (hr : runCalls c n l shs = .val (shs', rs)) : Reach c n shs' := by
  induction l generalizing shs rs with
  | nil =>
    simp only [runCalls, Out.val.injEq, Prod.mk.injEq] at hr
    rw [← hr.1]; exact h
  | cons x l ih =>
    obtain ⟨r, rs', h1, h2, _⟩ := runCalls_cons hr
    exact ih (.call h (hok x (by simp)) h1) (fun y hy => hok y (by simp [hy])) h2

theorem runCalls_nowrap {c : Ctx} (hv : c.Valid) {n : Nat} (hn : 0 < n) {l : List Call} {shs shs' : Shards}
    {rs : List CRes} (h : Reach c n shs) (hok : ∀ x ∈ l, OpOk x.mem x.now x.op)
    (hr : runCalls c n l shs = .val (shs', rs)) (hnw : NoWrap n shs') : NoWrap n shs := by
  induction l generalizing shs rs with
  | nil =>
    simp only [runCalls, Out.val.injEq, Prod.mk.injEq] at hr
    rw [hr.1]; exact hnw
  | cons x l ih =>
    obtain ⟨r, rs', h1, h2, _⟩ := runCalls_cons hr
    have := ih (.call h (hok x (by simp)) h1) (fun y hy => hok y (by simp [hy])) h2
    exact (h.eff hv hn (hok x (by simp)) h1 this).2

/-- Calls always complete, except that an assertion may fail once a distance byte has wrapped (C10). -/
theorem runCalls_total {c : Ctx} (hv : c.Valid) {n : Nat} (hn : 0 < n) (l : List Call) {shs : Shards} (h : Reach c n shs)
    (hok : ∀ x ∈ l, OpOk x.mem x.now x.op) :
    (∃ shs' rs, runCalls c n l shs = .val (shs', rs)) ∨ runCalls c n l shs = .abort true := by
  induction l generalizing shs with
  | nil => exact Or.inl ⟨_, _, rfl⟩
  | cons x l ih =>
    unfold runCalls
    rcases exec_eff hv hn x.mem x.now x.op (h.allInv hv hn) (hok x (by simp)) with ⟨r, hr, _⟩ | ha
    · rw [hr]
      simp only [Out.bind]
      rcases ih (.call h (hok x (by simp)) hr) (fun y hy => hok y (by simp [hy])) with ⟨s, rs, h1⟩ | h1
      · rw [h1]; exact Or.inl ⟨_, _, rfl⟩
      · rw [h1]; exact Or.inr rfl
    · rw [ha]; exact Or.inr rfl

theorem replay_from {c : Ctx} (hv : c.Valid) {n : Nat} (hn : 0 < n) {l : List Call} {shs shs' : Shards}
    {rs : List CRes} (h : Reach c n shs) (hok : ∀ x ∈ l, OpOk x.mem x.now x.op)
    (hr : runCalls c n l shs = .val (shs', rs)) (hnw : NoWrap n shs') :
    Replays (rs.flatMap CRes.evs) (stripped (view c n shs)) (stripped (view c n shs')) := by
  induction l generalizing shs rs with
  | nil =>
    simp only [runCalls, Out.val.injEq, Prod.mk.injEq] at hr
    obtain ⟨rfl, rfl⟩ := hr
    rfl
  | cons x l ih =>
    obtain ⟨r, rs', h1, h2, rfl⟩ := runCalls_cons hr
    have hre : Reach c n r.shs := .call h (hok x (by simp)) h1
    have hok' : ∀ y ∈ l, OpOk y.mem y.now y.op := fun y hy => hok y (by simp [hy])
    have h3 := (h.eff hv hn (hok x (by simp)) h1 (runCalls_nowrap hv hn hre hok' h2 hnw)).1
    exact h3.replay.append (ih hre hok' h2)

theorem view_new (c : Ctx) (n : Nat) (k : Bytes) : view c n (newCache c) k = none := by
  unfold view shView newCache shardInit mapInit
  simp only [Option.map_eq_none_iff, List.find?_eq_none]
  intro b hb
  obtain ⟨j, _, rfl⟩ := List.mem_map.1 hb
  simp [emptyBucket]

/-- **C15.**  Replaying the notifications of any history on an empty dictionary fits at every step (an
insertion is of a key not present, the entry said to be replaced or removed is the one present) and gives
exactly the contents of the cache, up to access times. -/
theorem notifications_replay {c : Ctx} (hv : c.Valid) {n : Nat} (hn : 0 < n) {l : List Call} {shs : Shards}
    {rs : List CRes} (hok : ∀ x ∈ l, OpOk x.mem x.now x.op) (hr : runCalls c n l (newCache c) = .val (shs, rs))
    (hnw : NoWrap n shs) : Replays (rs.flatMap CRes.evs) (fun _ => none) (stripped (view c n shs)) := by
  have := replay_from hv hn .new hok hr hnw
  have h0 : stripped (view c n (newCache c)) = fun _ => none := by
    funext k
    unfold stripped
    rw [view_new]; rfl
  rwa [h0] at this

/-! ### C04 -/

/-- Said in words: no expiry, or an expiry after `t`. -/
def LiveAt (e : Ent) (t : Int) : Prop := e.expires = 0 ∨ t < e.expires

theorem alive_iff {e : Ent} {t : Int} : e.alive t = true ↔ LiveAt e t := by
  unfold Ent.alive aliveExp LiveAt
  simp

/-- The live entry under a key was removed on purpose or replaced: an event of a kind other than expiry
mentions it. -/
def Ev.takesLive (k : Bytes) (e : Ent) (ev : Ev) : Prop :=
  ∃ e0, e0.key = k ∧ Ent.strip e0 = Ent.strip e ∧
    ((∃ e1, ev = .replaced e1 e0) ∨ ev = .deleted e0 ∨ ev = .cleared e0 ∨ ev = .lowmem e0)

theorem takes_of_fits {now : Int} {ev : Ev} {f : Bytes → Option Ent} {e : Ent} (h : ev.fits f) (ht : ev.timely now)
    (hf : f (Ev.key ev) = some (Ent.strip e)) (hl : e.alive now = true) : Ev.takesLive (Ev.key ev) e ev := by
  cases ev with
  | inserted e1 =>
    simp only [Ev.fits, Ev.key] at h hf
    rw [h] at hf; simp at hf
  | replaced e1 o =>
    simp only [Ev.fits, Ev.key] at h hf
    rw [h.2] at hf
    exact ⟨o, h.1, by simpa using hf, Or.inl ⟨e1, rfl⟩⟩
  | deleted o =>
    simp only [Ev.fits, Ev.key] at h hf
    rw [h] at hf
    exact ⟨o, rfl, by simpa using hf, Or.inr (Or.inl rfl)⟩
  | expired o =>
    simp only [Ev.fits, Ev.key] at h hf
    rw [h] at hf
    simp only [Option.some.injEq] at hf
    have : o.alive now = e.alive now := by
      rw [← Ent.strip_alive o, hf, Ent.strip_alive]
    simp only [Ev.timely] at ht
    rw [ht, hl] at this
    simp at this
  | cleared o =>
    simp only [Ev.fits, Ev.key] at h hf
    rw [h] at hf
    exact ⟨o, rfl, by simpa using hf, Or.inr (Or.inr (Or.inl rfl))⟩
  | lowmem o =>
    simp only [Ev.fits, Ev.key] at h hf
    rw [h] at hf
    exact ⟨o, rfl, by simpa using hf, Or.inr (Or.inr (Or.inr rfl))⟩

theorem apply_other {ev : Ev} {f : Bytes → Option Ent} {k : Bytes} (h : Ev.key ev ≠ k) : ev.apply f k = f k := by
  cases ev <;> simp only [Ev.apply, Ev.key] at h ⊢ <;> rw [update_of_ne (Ne.symm h)]

theorem _root_.Verif.Shard.Replays.keeps {now : Int} {evs : List Ev} {f f' : Bytes → Option Ent} (h : Replays evs f f')
    (ht : ∀ ev ∈ evs, ev.timely now) {k : Bytes} {e : Ent} (hf : f k = some (Ent.strip e)) (hl : e.alive now = true) :
    f' k = some (Ent.strip e) ∨ ∃ ev ∈ evs, Ev.takesLive k e ev := by
  induction evs generalizing f with
  | nil =>
    have : f' = f := h
    rw [this]; exact Or.inl hf
  | cons a l ih =>
    by_cases hk : Ev.key a = k
    · subst hk
      exact Or.inr ⟨a, by simp, takes_of_fits h.1 (ht a (by simp)) hf hl⟩
    · rcases ih h.2 (fun x hx => ht x (by simp [hx])) (by rw [apply_other hk]; exact hf) with h1 | ⟨x, hx, h1⟩
      · exact Or.inl h1
      · exact Or.inr ⟨x, by simp [hx], h1⟩

/-- **C04.**  Every entry a call at time `now` shows to its callback is live at `now`; every entry it reports
as expired is not; and a live entry is still there afterwards (its access time may be newer) unless the call
reports having replaced, deleted, cleared or, under low memory, evicted it. -/
theorem expiry_exact {c : Ctx} (hv : c.Valid) {n : Nat} (hn : 0 < n) {mem : Nat → Mem} {now : Int} {op : Op}
    {shs : Shards} {r : CRes} (h : Reach c n shs) (hok : OpOk mem now op) (hr : exec c n mem now op shs = .val r)
    (hnw : NoWrap n r.shs) :
    (∀ e ∈ r.seen, LiveAt e now) ∧
    (∀ e, Ev.expired e ∈ r.evs → ¬ LiveAt e now) ∧
    (∀ k e, view c n shs k = some e → LiveAt e now →
      (∃ e', view c n r.shs k = some e' ∧ Ent.strip e' = Ent.strip e) ∨ ∃ ev ∈ r.evs, Ev.takesLive k e ev) := by
  obtain ⟨he, _⟩ := h.eff hv hn hok hr hnw
  refine ⟨fun e hs => alive_iff.1 (he.seen e hs).1, ?_, ?_⟩
  · intro e hev hl
    have := he.timely _ hev
    simp only [Ev.timely] at this
    rw [alive_iff.2 hl] at this
    simp at this
  · intro k e hk hl
    have hf : stripped (view c n shs) k = some (Ent.strip e) := by unfold stripped; rw [hk]; rfl
    rcases he.replay.keeps he.timely hf (alive_iff.2 hl) with h1 | h1
    · left
      unfold stripped at h1
      obtain ⟨e', h2, h3⟩ := Option.map_eq_some_iff.1 h1
      exact ⟨e', h2, h3⟩
    · exact Or.inr h1

theorem onKey_val {c : Ctx} {n : Nat} {key : Bytes} {op : Sh → Out Res} {shs : Shards} {r : CRes}
    (h : onKey c n key op shs = .val r) :
    ∃ q, op (shs (shardIdx c n key)) = .val q ∧ r = ⟨update shs (shardIdx c n key) q.sh, q.status, q.evs, q.seen⟩ := by
  obtain ⟨q, h1, h2⟩ := out_bind_val h
  exact ⟨q, h1, by simpa using h2.symm⟩

/-- **C04.**  A load at time `now` finds the key exactly when a live entry is stored under it (or reports that
the update its callback asked for could not be allocated). -/
theorem load_finds_live {c : Ctx} (hv : c.Valid) {n : Nat} (hn : 0 < n) {mem : Nat → Mem} {now : Int} {key : Bytes}
    {o : LoadOpts} {shs : Shards} {r : CRes} (h : Reach c n shs) (hr : exec c n mem now (.load key o) shs = .val r)
    (hnw : NoWrap n shs) :
    (∃ e, view c n shs key = some e ∧ LiveAt e now) ↔ r.status = .found ∨ r.status = .nomem := by
  have hi := shardIdx_lt c hn key
  obtain ⟨q, hq, rfl⟩ := onKey_val hr
  obtain ⟨q', hq', hspec⟩ := loadOp_spec hv (mem (shardIdx c n key)) now key o (h.allInv hv hn _ hi)
  rw [hq] at hq'
  simp only [Out.val.injEq] at hq'
  subst hq'
  have ho := hnw _ hi
  obtain ⟨-, hst, -, -⟩ := hspec.2.2 ho ⟨shView (shs (shardIdx c n key)), _⟩ ⟨shView_rep (h.allInv hv hn _ hi) ho, rfl⟩
  simp only []
  rw [hst]
  unfold pLoad view
  cases hf : shView (shs (shardIdx c n key)) key with
  | none => simp [hf]
  | some e =>
    simp only [Option.some.injEq, hf]
    by_cases ha : e.alive now = true
    · rw [if_pos ha]
      constructor
      · intro _
        cases o.entry with
        | none => exact Or.inl rfl
        | some cb =>
          simp only []
          split
          · exact Or.inl rfl
          · split
            · exact Or.inl rfl
            · exact Or.inr rfl
      · intro _
        exact ⟨e, rfl, alive_iff.1 ha⟩
    · rw [if_neg ha]
      constructor
      · rintro ⟨e', rfl, h1⟩
        exact absurd (alive_iff.2 h1) ha
      · simp

/-! ### C16 -/

/-- The key a call is about. -/
def Op.key? : Op → Option Bytes
  | .load k _ => some k
  | .store k _ _ => some k
  | .delete k _ => some k
  | _ => none

/-- Everything about a result except the shards. -/
def CRes.answer (r : CRes) : Status × List Ev × List Ent := (r.status, r.evs, r.seen)

/-- Two outcomes give the same answer and agree on shard `i`. -/
def sameOn (i : Nat) : Out CRes → Out CRes → Prop
  | .val a, .val b => a.answer = b.answer ∧ a.shs i = b.shs i
  | .hang, .hang => True
  | .ub, .ub => True
  | .abort w, .abort w' => w = w'
  | _, _ => False

/-- **C16.**  In a reachable cache every stored key sits in the shard its hash selects, that shard exists, a
call on a key leaves every other shard exactly as it was, and its outcome depends on that shard only. -/
theorem shards_independent {c : Ctx} (hv : c.Valid) {n : Nat} (hn : 0 < n) {shs : Shards} (h : Reach c n shs)
    (hnw : NoWrap n shs) :
    (∀ k, shardIdx c n k < n) ∧
    (∀ i j, i < n → j < (shs i).map.nbuckets → ((shs i).map.buckets j).dib ≠ 0 →
      shardIdx c n ((shs i).map.buckets j).ent.key = i) ∧
    (∀ op k, Op.key? op = some k → ∀ mem now,
      (∀ r, exec c n mem now op shs = .val r → ∀ j, j ≠ shardIdx c n k → r.shs j = shs j) ∧
      (∀ shs', shs' (shardIdx c n k) = shs (shardIdx c n k) →
        sameOn (shardIdx c n k) (exec c n mem now op shs') (exec c n mem now op shs))) := by
  refine ⟨shardIdx_lt c hn, ?_, ?_⟩
  · intro i j hi hj hd
    have hpl := h.placed hv hn hnw i hi
    exact hpl _ _ ((shView_rep (h.allInv hv hn i hi) (hnw i hi) _ _).2 ⟨mem_cont.2 ⟨j, hj, hd, rfl⟩, rfl⟩)
  · have key : ∀ (k : Bytes) (f : Sh → Out Res), (∀ r, onKey c n k f shs = .val r → ∀ j, j ≠ shardIdx c n k → r.shs j = shs j) ∧
        (∀ shs', shs' (shardIdx c n k) = shs (shardIdx c n k) →
          sameOn (shardIdx c n k) (onKey c n k f shs') (onKey c n k f shs)) := by
      intro k f
      constructor
      · intro r hr j hj
        obtain ⟨q, _, rfl⟩ := onKey_val hr
        simp only []
        rw [update_of_ne hj]
      · intro shs' hs
        unfold onKey
        simp only [hs]
        cases f (shs (shardIdx c n k)) with
        | val a => exact ⟨rfl, by simp⟩
        | hang => trivial
        | ub => trivial
        | abort w => rfl
    intro op k hk mem now
    cases op <;> simp only [Op.key?, Option.some.injEq, reduceCtorEq] at hk
    · subst hk; exact key _ _
    · subst hk; exact key _ _
    · subst hk; exact key _ _

/-! ### A concrete case -/

/-- For checking a computed outcome. -/
def _root_.Verif.Shard.Out.test {α : Type} (p : α → Prop) [DecidablePred p] : Out α → Bool
  | .val a => p a
  | _ => false

theorem _root_.Verif.Shard.Out.of_test {α : Type} {p : α → Prop} [DecidablePred p] {o : Out α} (h : o.test p = true) :
    ∃ a, o = .val a ∧ p a := by
  cases o with
  | val a => exact ⟨a, rfl, by simpa [Out.test] using h⟩
  | hang => simp [Out.test] at h
  | ub => simp [Out.test] at h
  | abort w => simp [Out.test] at h

/-- `NoWrap`, computed. -/
def noWrapB (n : Nat) (shs : Shards) : Bool := (List.range n).all fun i => !(shs i).map.ovf

theorem noWrapB_iff {n : Nat} {shs : Shards} : noWrapB n shs = true ↔ NoWrap n shs := by
  unfold noWrapB NoWrap
  simp

namespace Example

/-- Plain store. -/
def sOpts (ttl : Int) : StoreOpts := ⟨0, ttl, 0, 7, false, false, false, false, false, none⟩

def calls : List Call :=
  [⟨.store [1] [10] (sOpts 5), okMem, 100⟩, ⟨.store [2] [20] (sOpts 0), okMem, 100⟩,
   ⟨.store [3] [30] (sOpts 0), okMem, 101⟩, ⟨.store [3] [31] (sOpts 0), okMem, 101⟩,
   ⟨.load [1] ⟨false, some fun _ => none⟩, okMem, 104⟩,
   ⟨.sweep none, okMem, 106⟩, ⟨.delete [2] none, okMem, 107⟩]

theorem calls_ok : ∀ x ∈ calls, OpOk x.mem x.now x.op := by
  intro x hx
  unfold calls at hx
  simp only [List.mem_cons, List.not_mem_nil, or_false] at hx
  rcases hx with rfl | rfl | rfl | rfl | rfl | rfl | rfl <;>
    first
    | exact ⟨⟨105, by decide⟩, fun _ => rfl⟩
    | exact ⟨⟨0, by decide⟩, fun _ => rfl⟩
    | trivial

/-- What an event tells, without the entry's bookkeeping. -/
def evText : Ev → String × Bytes × Bytes
  | .inserted e => ("inserted", e.key, e.value)
  | .replaced e o => ("replaced", e.value, o.value)
  | .deleted e => ("deleted", e.key, e.value)
  | .expired e => ("expired", e.key, e.value)
  | .cleared e => ("cleared", e.key, e.value)
  | .lowmem e => ("lowmem", e.key, e.value)

/-- The history of the example completes, wraps no distance, and notifies as expected. -/
example : ∃ shs rs, runCalls ctx 2 calls (newCache ctx) = .val (shs, rs) ∧ Reach ctx 2 shs ∧ NoWrap 2 shs ∧
    (rs.flatMap CRes.evs).map evText = [("inserted", [1], [10]), ("inserted", [2], [20]),
        ("inserted", [3], [30]), ("replaced", [31], [30]), ("expired", [1], [10]), ("deleted", [2], [20])] ∧
    (view ctx 2 shs [3]).map Ent.value = some [31] ∧ view ctx 2 shs [1] = none ∧ view ctx 2 shs [2] = none := by
  obtain ⟨⟨shs, rs⟩, hr, h⟩ := Out.of_test (o := runCalls ctx 2 calls (newCache ctx)) (p := fun x =>
    (x.2.flatMap CRes.evs).map evText = [("inserted", [1], [10]), ("inserted", [2], [20]),
        ("inserted", [3], [30]), ("replaced", [31], [30]), ("expired", [1], [10]), ("deleted", [2], [20])] ∧
        noWrapB 2 x.1 = true ∧ (view ctx 2 x.1 [3]).map Ent.value = some [31] ∧
        view ctx 2 x.1 [1] = none ∧ view ctx 2 x.1 [2] = none) (by decide +kernel)
  exact ⟨shs, rs, hr, runCalls_reach .new calls_ok hr, noWrapB_iff.1 h.2.1, h.1, h.2.2⟩

end Example

end Verif.Cache
