import Verif.Shard.Effect
import Verif.Cache.Props

/-!
The effect of every public call on the whole cache, through its notifications, and the reachable states.
-/

namespace Verif.Cache

open Verif.Map Verif.Shard Function

/-- What is stored under a key: look through all buckets of its shard. -/
def view (c : Ctx) (n : Nat) (shs : Shards) (k : Bytes) : Option Ent := shView (shs (shardIdx c n k)) k

/-- Every entry sits in the shard of its key. -/
def Placed (c : Ctx) (n : Nat) (shs : Shards) : Prop :=
  ∀ i, i < n → ∀ k e, shView (shs i) k = some e → shardIdx c n k = i

/-- What a call needs in order not to run into undefined behaviour (C14). -/
def OpOk (mem : Nat → Mem) (now : Int) : Op → Prop
  | .store _ _ o => (∃ req, reqExpires o now = .val req) ∧ ∀ i, (mem i).ent = true
  | .clear _ => ∀ i, (mem i).tbl = true
  | _ => True

/-- Keys a call may write. -/
def Op.writes : Op → List Bytes
  | .load k _ => [k]
  | .store k _ _ => [k]
  | _ => []

/-- States that calls can lead to. -/
inductive Reach (c : Ctx) (n : Nat) : Shards → Prop
  | new : Reach c n (newCache c)
  | call {shs : Shards} {mem : Nat → Mem} {now : Int} {op : Op} {r : CRes} :
      Reach c n shs → OpOk mem now op → exec c n mem now op shs = .val r → Reach c n r.shs

/-- The effect of a call. -/
structure CEff (c : Ctx) (n : Nat) (now : Int) (W : List Bytes) (shs shs' : Shards) (evs : List Ev) (seen : List Ent) : Prop where
  replay : Replays evs (stripped (view c n shs)) (stripped (view c n shs'))
  timely : ∀ ev ∈ evs, ev.timely now
  seen : ∀ e ∈ seen, e.alive now = true ∧ ∃ e0, view c n shs e.key = some e0 ∧ Ent.strip e0 = Ent.strip e
  mono : ∀ i, (shs i).cas ≤ (shs' i).cas
  fresh : ∀ ev ∈ evs, ∀ e ∈ ev.written, e.key ∈ W ∧ (shs (shardIdx c n e.key)).cas < e.id ∧
    e.id ≤ (shs' (shardIdx c n e.key)).cas ∧ e.cas = if c.usecas then e.id else 0

theorem CEff.refl {c : Ctx} {n : Nat} {now : Int} {W : List Bytes} {shs : Shards} : CEff c n now W shs shs [] [] :=
  ⟨rfl, by simp, by simp, fun _ => le_refl _, by simp⟩

/-- The key a notification is about. -/
def Ev.key : Ev → Bytes
  | .inserted e | .replaced e _ | .deleted e | .expired e | .cleared e | .lowmem e => e.key

/-- Replaying on part of the keys. -/
theorem _root_.Verif.Shard.Replays.lift (P : Bytes → Prop) [DecidablePred P] (evs : List Ev) (f f' F : Bytes → Option Ent)
    (h : Replays evs f f') (hP : ∀ ev ∈ evs, P (Ev.key ev)) (hF : ∀ k, P k → F k = f k) :
    Replays evs F (fun k => if P k then f' k else F k) := by
  induction evs generalizing f F with
  | nil =>
    have hh : f' = f := h
    subst hh
    show (fun k => if P k then f' k else F k) = F
    funext k
    split
    · rename_i hk; exact (hF k hk).symm
    · rfl
  | cons ev evs ih =>
    obtain ⟨h1, h2⟩ := h
    have hk := hP ev (by simp)
    have hFk := hF _ hk
    have hfit : ev.fits F := by
      cases ev <;> simp only [Ev.fits, Ev.key] at h1 hFk ⊢ <;> rw [hFk] <;> exact h1
    have happ : ∀ k, P k → ev.apply F k = ev.apply f k := by
      intro k hk'
      cases ev <;> simp only [Ev.apply] <;> (unfold update; split <;> [rfl; exact hF k hk'])
    have hout : ∀ k, ¬ P k → ev.apply F k = F k := by
      intro k hk'
      have hne : k ≠ Ev.key ev := fun he => hk' (he ▸ hk)
      cases ev <;> simp only [Ev.apply, Ev.key] at hne ⊢ <;> rw [update_of_ne hne]
    refine ⟨hfit, ?_⟩
    have := ih (ev.apply f) (ev.apply F) h2 (fun x hx => hP x (by simp [hx])) happ
    convert this using 1
    funext k
    split
    · rfl
    · rename_i hk'; exact (hout k hk').symm

/-- The keys of notifications that can be replayed are stored before, or written. -/
theorem _root_.Verif.Shard.Replays.keys (evs : List Ev) (f f' : Bytes → Option Ent) (h : Replays evs f f') (P : Bytes → Prop)
    (hf : ∀ k e, f k = some e → P k) (hw : ∀ ev ∈ evs, ∀ e ∈ ev.written, P e.key) : ∀ ev ∈ evs, P (Ev.key ev) := by
  induction evs generalizing f with
  | nil => simp
  | cons ev evs ih =>
    obtain ⟨h1, h2⟩ := h
    have hk : P (Ev.key ev) := by
      cases ev with
      | inserted e => exact hw (.inserted e) (by simp) e (by simp [Ev.written])
      | replaced e o => exact hf _ _ h1.2
      | deleted e => exact hf _ _ h1
      | expired e => exact hf _ _ h1
      | cleared e => exact hf _ _ h1
      | lowmem e => exact hf _ _ h1
    intro x hx
    rcases List.mem_cons.1 hx with rfl | hx
    · exact hk
    · refine ih (ev.apply f) h2 ?_ (fun y hy => hw y (by simp [hy])) x hx
      intro k e he
      by_cases hkk : k = Ev.key ev
      · rw [hkk]; exact hk
      · cases ev <;> simp only [Ev.apply, Ev.key] at he hkk <;> rw [update_of_ne hkk] at he <;> exact hf _ _ he

/-- A key that no notification is about keeps its entry. -/
theorem _root_.Verif.Shard.Replays.untouched (evs : List Ev) (f f' : Bytes → Option Ent) (h : Replays evs f f') (k : Bytes)
    (hk : ∀ ev ∈ evs, Ev.key ev ≠ k) : f' k = f k := by
  induction evs generalizing f with
  | nil =>
    have : f' = f := h
    rw [this]
  | cons ev evs ih =>
    rw [ih _ h.2 (fun x hx => hk x (by simp [hx]))]
    have := hk ev (by simp)
    cases ev <;> simp only [Ev.apply, Ev.key] at this ⊢ <;> rw [update_of_ne (Ne.symm this)]

/-- After an operation the shard only holds keys that were there or were written. -/
theorem _root_.Verif.Shard.Replays.stays (evs : List Ev) (f f' : Bytes → Option Ent) (h : Replays evs f f') (P : Bytes → Prop)
    (hf : ∀ k e, f k = some e → P k) (hw : ∀ ev ∈ evs, ∀ e ∈ ev.written, P e.key) : ∀ k e, f' k = some e → P k := by
  intro k e he
  by_cases hk : ∃ ev ∈ evs, Ev.key ev = k
  · obtain ⟨ev, h1, rfl⟩ := hk
    exact Replays.keys evs f f' h P hf hw ev h1
  · push Not at hk
    rw [Replays.untouched evs f f' h k hk] at he
    exact hf _ _ he

theorem stripped_some {f : Bytes → Option Ent} {k : Bytes} : (∃ e, stripped f k = some e) ↔ ∃ e, f k = some e := by
  unfold stripped
  cases f k <;> simp

/-- From the effect on one shard to the effect on the cache. -/
theorem ceff_put {c : Ctx} {n : Nat} {now : Int} {W : List Bytes} {shs : Shards} (hpl : Placed c n shs) {i : Nat} (hi : i < n)
    (hW : ∀ k ∈ W, shardIdx c n k = i) {r : Res} (hnw : r.sh.map.ovf = false) (he : ShEff c now W (shs i) r) :
    CEff c n now W shs (update shs i r.sh) r.evs r.seen ∧ Placed c n (update shs i r.sh) := by
  obtain ⟨hinv, heff⟩ := he
  obtain ⟨ho, heff⟩ := heff hnw
  have hkeys := heff.replay.keys _ _ _ (fun k => shardIdx c n k = i)
    (fun k e hke => by
      obtain ⟨e', he'⟩ := stripped_some.1 ⟨e, hke⟩
      exact hpl i hi k e' he') (fun ev hev e hee => hW _ (heff.fresh ev hev e hee).1)
  constructor
  · refine ⟨?_, heff.timely, ?_, ?_, ?_⟩
    · have := Replays.lift (fun k => shardIdx c n k = i) r.evs _ _ (stripped (view c n shs)) heff.replay hkeys (by
        intro k hk
        unfold stripped view
        rw [hk])
      convert this using 1
      funext k
      split
      · rename_i hk
        unfold stripped view
        rw [hk, update_self]
      · rename_i hk
        unfold stripped view
        rw [update_of_ne hk]
    · intro e hee
      obtain ⟨h1, e0, h2, h3⟩ := heff.seen e hee
      refine ⟨h1, e0, ?_, h3⟩
      unfold view
      rw [hpl i hi _ _ h2]; exact h2
    · intro j
      by_cases hj : j = i
      · subst hj; rw [update_self]; exact heff.mono
      · rw [update_of_ne hj]
    · intro ev hev e hee
      obtain ⟨h1, h2, h3, h4⟩ := heff.fresh ev hev e hee
      rw [hW _ h1, update_self]
      exact ⟨h1, h2, h3, h4⟩
  · intro j hj k e hke
    by_cases hji : j = i
    · subst hji
      rw [update_self] at hke
      obtain ⟨e', he'⟩ := stripped_some.2 ⟨e, hke⟩
      exact heff.replay.stays _ _ _ (fun k => shardIdx c n k = j)
        (fun k e hke => by
          obtain ⟨e', he'⟩ := stripped_some.1 ⟨e, hke⟩
          exact hpl j hi k e' he') (fun ev hev e hee => hW _ (heff.fresh ev hev e hee).1) k e' he'
    · rw [update_of_ne hji] at hke
      exact hpl j hj k e hke

theorem CEff.trans {c : Ctx} {n : Nat} {now : Int} {a b d : Shards} {e1 e2 : List Ev} {s1 s2 : List Ent}
    (h1 : CEff c n now [] a b e1 s1) (h2 : CEff c n now [] b d e2 s2)
    (hs : ∀ e ∈ s2, view c n b e.key = view c n a e.key) : CEff c n now [] a d (e1 ++ e2) (s1 ++ s2) := by
  refine ⟨h1.replay.append h2.replay, ?_, ?_, fun i => le_trans (h1.mono i) (h2.mono i), ?_⟩
  · intro ev hev
    rcases List.mem_append.1 hev with h | h
    · exact h1.timely ev h
    · exact h2.timely ev h
  · intro e he
    rcases List.mem_append.1 he with h | h
    · exact h1.seen e h
    · rw [← hs e h]; exact h2.seen e h
  · intro ev hev e he
    rcases List.mem_append.1 hev with h | h
    · exact absurd (h1.fresh ev h e he).1 (by simp)
    · exact absurd (h2.fresh ev h e he).1 (by simp)

/-- Effect of an outcome, if no distance wraps. -/
def OutEff (c : Ctx) (n : Nat) (now : Int) (W : List Bytes) (shs : Shards) (r : CRes) : Prop :=
  AllInv c n r.shs ∧ (NoWrap n r.shs → NoWrap n shs ∧ (Placed c n shs →
    CEff c n now W shs r.shs r.evs r.seen ∧ Placed c n r.shs))

theorem onKey_eff {c : Ctx} {n : Nat} (hn : 0 < n) {now : Int} {W : List Bytes} {key : Bytes}
    (hW : ∀ k ∈ W, k = key) {op : Sh → Out Res} {shs : Shards} (h : AllInv c n shs)
    (ho : (∃ r, op (shs (shardIdx c n key)) = .val r ∧ ShEff c now W (shs (shardIdx c n key)) r) ∨
      op (shs (shardIdx c n key)) = .abort true) :
    (∃ r, onKey c n key op shs = .val r ∧ OutEff c n now W shs r) ∨ onKey c n key op shs = .abort true := by
  have hi := shardIdx_lt c hn key
  unfold onKey
  simp only []
  rcases ho with ⟨r, hr, he⟩ | ha
  · left
    rw [hr]
    refine ⟨_, rfl, h.put he.1, ?_⟩
    intro hnw
    have h1 := hnw.self hi
    refine ⟨hnw.back fun _ => (he.2 h1).1, ?_⟩
    intro hpl
    exact ceff_put hpl hi (fun k hk => by rw [hW k hk]) h1 he
  · right
    rw [ha]; rfl

/-- Entries shown by a scan of some shards belong to these shards. -/
theorem iterShards_eff {c : Ctx} (hv : c.Valid) {n : Nat} (mem : Nat → Mem) (now : Int)
    (cb : Option (List Ent → Ent → Act)) (is : List Nat) (hnd : is.Nodup) (his : ∀ i ∈ is, i < n) (acc : List Ent)
    (shs : Shards) (h : AllInv c n shs) :
    ∃ r, iterShards c mem now cb is acc shs = .val r ∧ AllInv c n r.shs ∧ (NoWrap n r.shs → NoWrap n shs ∧
      (Placed c n shs → ∃ new, r.seen = acc ++ new ∧ (∀ e ∈ new, shardIdx c n e.key ∈ is) ∧
        CEff c n now [] shs r.shs r.evs new ∧ Placed c n r.shs)) := by
  induction is generalizing acc shs with
  | nil => exact ⟨_, rfl, h, fun hnw => ⟨hnw, fun hpl => ⟨[], by simp, by simp, CEff.refl, hpl⟩⟩⟩
  | cons i is ih =>
    have hi := his i (by simp)
    obtain ⟨r, hr, he⟩ := iterOp_eff hv (mem i) now (cb.map fun f l e => f (acc ++ l) e) (h i hi)
    unfold iterShards
    rw [hr]
    simp only [Out.bind]
    have hone : r.sh.map.ovf = false → Placed c n shs → (∀ e ∈ r.seen, shardIdx c n e.key = i) := by
      intro ho hpl e hee
      obtain ⟨_, e0, h2, _⟩ := ((he.2 ho).2).seen e hee
      exact hpl i hi _ _ h2
    split
    · refine ⟨_, rfl, h.put he.1, ?_⟩
      intro hnw
      have h1 := hnw.self hi
      refine ⟨hnw.back fun _ => (he.2 h1).1, ?_⟩
      intro hpl
      obtain ⟨h2, h3⟩ := ceff_put hpl hi (W := []) (by simp) h1 he
      exact ⟨r.seen, rfl, fun e hee => by rw [hone h1 hpl e hee]; simp, h2, h3⟩
    · obtain ⟨q, hq, hA, hspec⟩ := ih (List.nodup_cons.1 hnd).2 (fun j hj => his j (by simp [hj])) (acc ++ r.seen)
        (update shs i r.sh) (h.put he.1)
      rw [hq]
      refine ⟨_, rfl, hA, ?_⟩
      intro hnw
      obtain ⟨hnw1, hsp⟩ := hspec hnw
      have h1 := hnw1.self hi
      refine ⟨hnw1.back fun _ => (he.2 h1).1, ?_⟩
      intro hpl
      obtain ⟨h2, h3⟩ := ceff_put hpl hi (W := []) (by simp) h1 he
      obtain ⟨new, h4, h5, h6, h7⟩ := hsp h3
      refine ⟨r.seen ++ new, by rw [h4, List.append_assoc], ?_, h2.trans h6 ?_, h7⟩
      · intro e hee
        rcases List.mem_append.1 hee with h8 | h8
        · rw [hone h1 hpl e h8]; simp
        · exact List.mem_cons_of_mem _ (h5 e h8)
      · intro e hee
        have : shardIdx c n e.key ≠ i := fun hc => (List.nodup_cons.1 hnd).1 (hc ▸ h5 e hee)
        unfold view
        rw [update_of_ne this]

theorem sweepShards_eff {c : Ctx} (hv : c.Valid) {n : Nat} (mem : Nat → Mem) (now : Int)
    (is : List Nat) (his : ∀ i ∈ is, i < n) (shs : Shards) (h : AllInv c n shs) :
    ∃ r sw kp, sweepShards c mem now is shs = .val (r, sw, kp) ∧ r.seen = [] ∧ OutEff c n now [] shs r := by
  induction is generalizing shs with
  | nil => exact ⟨_, _, _, rfl, rfl, h, fun hnw => ⟨hnw, fun hpl => ⟨CEff.refl, hpl⟩⟩⟩
  | cons i is ih =>
    have hi := his i (by simp)
    obtain ⟨r, sw, kp, hr, he⟩ := sweepOp_eff hv (mem i) now (h i hi)
    obtain ⟨q, sw', kp', hq, hqs, hA, hspec⟩ := ih (fun j hj => his j (by simp [hj])) (update shs i r.sh) (h.put he.1)
    unfold sweepShards
    rw [hr]
    simp only [Out.bind]
    rw [hq]
    refine ⟨_, _, _, rfl, hqs, hA, ?_⟩
    intro hnw
    obtain ⟨hnw1, hsp⟩ := hspec hnw
    have h1 := hnw1.self hi
    refine ⟨hnw1.back fun _ => (he.2 h1).1, ?_⟩
    intro hpl
    obtain ⟨h2, h3⟩ := ceff_put hpl hi (W := []) (by simp) h1 he
    obtain ⟨h6, h7⟩ := hsp h3
    refine ⟨?_, h7⟩
    have := h2.trans h6 (by rw [hqs]; simp)
    refine ⟨this.replay, this.timely, ?_, this.mono, this.fresh⟩
    simp only [hqs]
    simp

theorem clearShards_eff {c : Ctx} (hv : c.Valid) {n : Nat} (mem : Nat → Mem) (hm : ∀ i, (mem i).tbl = true) (now : Int)
    (is : List Nat) (his : ∀ i ∈ is, i < n) (shs : Shards) (h : AllInv c n shs) :
    ∃ r, clearShards c mem now is shs = .val r ∧ r.seen = [] ∧ OutEff c n now [] shs r := by
  induction is generalizing shs with
  | nil => exact ⟨_, rfl, rfl, h, fun hnw => ⟨hnw, fun hpl => ⟨CEff.refl, hpl⟩⟩⟩
  | cons i is ih =>
    have hi := his i (by simp)
    obtain ⟨r, hr, he⟩ := clearOp_eff hv (mem i) now (h i hi) (hm i)
    obtain ⟨q, hq, hqs, hA, hspec⟩ := ih (fun j hj => his j (by simp [hj])) (update shs i r.sh) (h.put he.1)
    unfold clearShards
    rw [hr]
    simp only [Out.bind]
    rw [hq]
    refine ⟨_, rfl, hqs, hA, ?_⟩
    intro hnw
    obtain ⟨hnw1, hsp⟩ := hspec hnw
    have h1 := hnw1.self hi
    refine ⟨hnw1.back fun _ => (he.2 h1).1, ?_⟩
    intro hpl
    obtain ⟨h2, h3⟩ := ceff_put hpl hi (W := []) (by simp) h1 he
    obtain ⟨h6, h7⟩ := hsp h3
    refine ⟨?_, h7⟩
    have := h2.trans h6 (by rw [hqs]; simp)
    refine ⟨this.replay, this.timely, ?_, this.mono, this.fresh⟩
    simp only [hqs]
    simp

/-- The effect of every public call. -/
theorem exec_eff {c : Ctx} (hv : c.Valid) {n : Nat} (hn : 0 < n) (mem : Nat → Mem) (now : Int) (op : Op) {shs : Shards}
    (h : AllInv c n shs) (hok : OpOk mem now op) :
    (∃ r, exec c n mem now op shs = .val r ∧ OutEff c n now op.writes shs r) ∨ exec c n mem now op shs = .abort true := by
  cases op with
  | load k o =>
    exact onKey_eff hn (by simp [Op.writes]) h (Or.inl (loadOp_eff hv _ _ _ _ (h _ (shardIdx_lt c hn k))))
  | store k v o =>
    obtain ⟨⟨req, hreq⟩, hm⟩ := hok
    exact onKey_eff hn (by simp [Op.writes]) h (storeOp_eff hv _ _ _ _ _ (h _ (shardIdx_lt c hn k)) hreq (hm _))
  | delete k cb =>
    exact onKey_eff hn (by simp [Op.writes]) h (deleteOp_eff hv _ _ _ _ (h _ (shardIdx_lt c hn k)))
  | iter one cb =>
    left
    obtain ⟨r, hr, hA, hs⟩ := iterShards_eff hv mem now cb (scope n one) (scope_nodup n one) (scope_lt n one) [] shs h
    refine ⟨r, hr, hA, ?_⟩
    intro hnw
    obtain ⟨h1, h2⟩ := hs hnw
    refine ⟨h1, fun hpl => ?_⟩
    obtain ⟨new, h3, _, h4, h5⟩ := h2 hpl
    rw [show r.seen = new by simpa using h3]
    exact ⟨h4, h5⟩
  | sweep one =>
    left
    obtain ⟨r, sw, kp, hr, _, he⟩ := sweepShards_eff hv mem now (scope n one) (scope_lt n one) shs h
    refine ⟨r, ?_, he⟩
    show ((sweepShards c mem now (scope n one) shs).bind fun (r, _, _) => .val r) = .val r
    rw [hr]; rfl
  | clear one =>
    left
    obtain ⟨r, hr, _, he⟩ := clearShards_eff hv mem hok now (scope n one) (scope_lt n one) shs h
    exact ⟨r, hr, he⟩

theorem placed_new (c : Ctx) (n : Nat) : Placed c n (newCache c) := by
  intro i _ k e he
  exfalso
  have : shView (newCache c i) k = none := by
    unfold shView newCache shardInit mapInit
    simp only [Option.map_eq_none_iff, List.find?_eq_none]
    intro b hb
    obtain ⟨j, _, rfl⟩ := List.mem_map.1 hb
    simp [emptyBucket]
  rw [this] at he
  simp at he

theorem Reach.allInv {c : Ctx} (hv : c.Valid) {n : Nat} (hn : 0 < n) {shs : Shards} (h : Reach c n shs) : AllInv c n shs := by
  induction h with
  | new => exact allInv_new hv n
  | call _ hok hr ih =>
    rcases exec_eff hv hn _ _ _ ih hok with ⟨r, hr', he⟩ | ha
    · rw [hr] at hr'
      simp only [Out.val.injEq] at hr'
      subst hr'
      exact he.1
    · rw [hr] at ha; simp at ha

theorem Reach.placed {c : Ctx} (hv : c.Valid) {n : Nat} (hn : 0 < n) {shs : Shards} (h : Reach c n shs)
    (hnw : NoWrap n shs) : Placed c n shs := by
  induction h with
  | new => exact placed_new c n
  | call hre hok hr ih =>
    rcases exec_eff hv hn _ _ _ (hre.allInv hv hn) hok with ⟨r, hr', he⟩ | ha
    · rw [hr] at hr'
      simp only [Out.val.injEq] at hr'
      subst hr'
      obtain ⟨h1, h2⟩ := he.2 hnw
      exact (h2 (ih h1)).2
    · rw [hr] at ha; simp at ha

/-- The effect of a call on a reachable state. -/
theorem Reach.eff {c : Ctx} (hv : c.Valid) {n : Nat} (hn : 0 < n) {mem : Nat → Mem} {now : Int} {op : Op} {shs : Shards}
    {r : CRes} (h : Reach c n shs) (hok : OpOk mem now op) (hr : exec c n mem now op shs = .val r) (hnw : NoWrap n r.shs) :
    CEff c n now op.writes shs r.shs r.evs r.seen ∧ NoWrap n shs := by
  rcases exec_eff hv hn _ _ _ (h.allInv hv hn) hok with ⟨r, hr', he⟩ | ha
  · rw [hr] at hr'
    simp only [Out.val.injEq] at hr'
    subst hr'
    obtain ⟨h1, h2⟩ := he.2 hnw
    exact ⟨(h2 (h.placed hv hn h1)).1, h1⟩
  · rw [hr] at ha; simp at ha

end Verif.Cache
