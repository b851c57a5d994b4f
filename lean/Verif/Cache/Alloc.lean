import Verif.Cache.Counters

/-!
C14: failed allocations.
-/

namespace Verif.Cache

open Verif.Map Verif.Shard Function

/-- **C14, negation.**  In every reachable state, with any key and options, a store whose entry cannot be
allocated runs into undefined behaviour (`entry_free(NULL)`). -/
theorem store_without_entry_memory_ub {c : Ctx} (hv : c.Valid) {n : Nat} (hn : 0 < n) {mem : Nat → Mem} {now : Int}
    {key val : Bytes} {o : StoreOpts} {shs : Shards} (h : Reach c n shs) (hm : ∀ i, (mem i).ent = false)
    {req : Int} (hreq : reqExpires o now = .val req) : exec c n mem now (.store key val o) shs = .ub := by
  obtain ⟨ex, hex, _⟩ := storeExpires_spec hv now key o (h.allInv hv hn _ (shardIdx_lt c hn key)) hreq
  unfold exec onKey
  simp only []
  unfold storeOp
  rw [hex]
  simp [Out.bind, hm]

/-- **C14, negation.**  Clearing a shard whose new table cannot be allocated runs into undefined behaviour. -/
theorem clear_without_table_memory_ub {c : Ctx} {n : Nat} (hn : 0 < n) {mem : Nat → Mem} {now : Int} {shs : Shards}
    (hm : (mem 0).tbl = false) : exec c n mem now (.clear none) shs = .ub := by
  obtain ⟨m, rfl⟩ : ∃ m, n = m + 1 := ⟨n - 1, by omega⟩
  unfold exec scope
  rw [List.range_succ_eq_map]
  unfold clearShards
  simp [clearOp, hm, Out.bind]

theorem load_nomem {c : Ctx} {mem : Mem} {now : Int} {key : Bytes} {o : LoadOpts} {s : Sh} {r : Res}
    (hr : loadOp c mem now key o s = .val r) (hs : r.status = .nomem) : r.evs = [] := by
  unfold loadOp at hr
  obtain ⟨g, hg, hr⟩ := out_bind_val hr
  cases g with
  | none => simp only [Out.val.injEq] at hr; subst hr; rfl
  | some i =>
    simp only [] at hr
    split at hr
    · obtain ⟨m, hm, hr⟩ := out_bind_val hr
      simp only [Out.val.injEq] at hr; subst hr; simp at hs
    · split at hr
      · simp only [Out.val.injEq] at hr; subst hr; rfl
      · split at hr
        · simp only [Out.val.injEq] at hr; subst hr; rfl
        · split at hr
          · simp only [Out.val.injEq] at hr; subst hr; rfl
          · simp only [Out.val.injEq] at hr; subst hr; simp at hs

theorem delete_nomem {c : Ctx} {mem : Mem} {now : Int} {key : Bytes} {cb : Option (Ent → Bool)} {s : Sh} {r : Res}
    (hr : deleteOp c mem now key cb s = .val r) : r.status ≠ .nomem := by
  unfold deleteOp at hr
  obtain ⟨⟨m1, q⟩, h1, hr⟩ := out_bind_val hr
  cases q with
  | none => simp only [Out.val.injEq] at hr; subst hr; simp
  | some entry =>
    simp only [] at hr
    split at hr
    · obtain ⟨m2, h2, hr⟩ := out_bind_val hr
      simp only [Out.val.injEq] at hr; subst hr; simp
    · split at hr
      · obtain ⟨⟨m2, q2⟩, h2, hr⟩ := out_bind_val hr
        cases q2 with
        | none => simp at hr
        | some old =>
          obtain ⟨_, h3, hr⟩ := out_bind_val hr
          simp only [Out.val.injEq] at hr; subst hr; simp
      · obtain ⟨m2, h2, hr⟩ := out_bind_val hr
        simp only [Out.val.injEq] at hr; subst hr; simp

theorem iter_nomem {c : Ctx} {mem : Nat → Mem} {now : Int} {cb : Option (List Ent → Ent → Act)} {is : List Nat}
    {acc : List Ent} {shs : Shards} {r : CRes} (hr : iterShards c mem now cb is acc shs = .val r) : r.status ≠ .nomem := by
  induction is generalizing acc shs r with
  | nil => simp only [iterShards, Out.val.injEq] at hr; subst hr; simp
  | cons i is ih =>
    unfold iterShards at hr
    obtain ⟨q, hq, hr⟩ := out_bind_val hr
    have hqs : q.status ≠ .nomem := by
      unfold iterOp at hq
      obtain ⟨st, h1, hq⟩ := out_bind_val hq
      obtain ⟨m, h2, hq⟩ := out_bind_val hq
      simp only [Out.val.injEq] at hq
      subst hq
      simp only []
      split <;> simp
    simp only [] at hr
    split at hr
    · simp only [Out.val.injEq] at hr; subst hr; exact hqs
    · obtain ⟨q2, hq2, hr⟩ := out_bind_val hr
      simp only [Out.val.injEq] at hr; subst hr
      have := ih hq2
      exact this

theorem sweep_nomem {c : Ctx} {mem : Nat → Mem} {now : Int} {is : List Nat}
    {shs : Shards} {r : CRes} {a b : Nat} (hr : sweepShards c mem now is shs = .val (r, a, b)) : r.status ≠ .nomem := by
  induction is generalizing shs r a b with
  | nil =>
    simp only [sweepShards, Out.val.injEq, Prod.mk.injEq] at hr
    obtain ⟨rfl, _⟩ := hr
    simp
  | cons i is ih =>
    unfold sweepShards at hr
    obtain ⟨⟨q, _, _⟩, hq, hr⟩ := out_bind_val hr
    obtain ⟨⟨q2, _, _⟩, hq2, hr⟩ := out_bind_val hr
    simp only [Out.val.injEq, Prod.mk.injEq] at hr
    obtain ⟨rfl, _⟩ := hr
    have := ih hq2
    exact this

theorem clear_nomem {c : Ctx} {mem : Nat → Mem} {now : Int} {is : List Nat}
    {shs : Shards} {r : CRes} (hr : clearShards c mem now is shs = .val r) : r.status ≠ .nomem := by
  induction is generalizing shs r with
  | nil =>
    simp only [clearShards, Out.val.injEq] at hr
    subst hr
    simp
  | cons i is ih =>
    unfold clearShards at hr
    obtain ⟨q, hq, hr⟩ := out_bind_val hr
    obtain ⟨q2, hq2, hr⟩ := out_bind_val hr
    simp only [Out.val.injEq] at hr
    subst hr
    have := ih hq2
    exact this

/-- What a user can read of an entry: everything except the time of last access. -/
def readable (e : Ent) : Bytes × Bytes × Int × Nat × Nat := (e.key, e.value, e.expires, e.flags, e.cas)

/-- **C14** (`_partial`: the entry of a store and the new table of a clear must be allocatable, `OpOk`; without
that see `store_without_entry_memory_ub`, `clear_without_table_memory_ub`).  Whatever other allocations fail,
every call completes; a call that reports `nomem` is a store or an updating load, changes no stored entry, loses
none and adds none, and announces nothing. -/
theorem alloc_failure_keeps_data_partial {c : Ctx} (hv : c.Valid) {n : Nat} (hn : 0 < n) {mem : Nat → Mem} {now : Int}
    {op : Op} {shs : Shards} (h : Reach c n shs) (hok : OpOk mem now op) :
    (∃ r, exec c n mem now op shs = .val r ∧ (r.status = .nomem →
      ((∃ k v o, op = .store k v o) ∨ ∃ k o f, op = .load k o ∧ o.entry = some f) ∧
      (NoWrap n r.shs → r.evs = [] ∧ ∀ k, (view c n r.shs k).map readable = (view c n shs k).map readable))) ∨
    exec c n mem now op shs = .abort true := by
  rcases exec_eff hv hn mem now op (h.allInv hv hn) hok with ⟨r, hr, he⟩ | ha
  swap
  · right; exact ha
  left
  refine ⟨r, hr, ?_⟩
  intro hst
  have hfin : (NoWrap n r.shs → r.evs = []) → (NoWrap n r.shs → r.evs = [] ∧ ∀ k, (view c n r.shs k).map readable = (view c n shs k).map readable) := by
    intro hev hnw
    refine ⟨hev hnw, fun k => ?_⟩
    have hrep := (h.eff hv hn hok hr hnw).1.replay
    rw [hev hnw] at hrep
    have hrep : stripped (view c n r.shs) = stripped (view c n shs) := hrep
    have hk := congrFun hrep k
    unfold stripped at hk
    have hre : readable = readable ∘ Ent.strip := by funext e; rfl
    rw [hre, ← Option.map_map, ← Option.map_map, hk]
  cases op with
  | load k o =>
    have hr' : onKey c n k (loadOp c (mem (shardIdx c n k)) now k o) shs = .val r := hr
    obtain ⟨q, hq, rfl⟩ := onKey_val hr'
    refine ⟨Or.inr ?_, hfin fun _ => load_nomem hq hst⟩
    cases hcb : o.entry with
    | some f => exact ⟨k, o, f, rfl, hcb⟩
    | none =>
      exfalso
      unfold loadOp at hq
      obtain ⟨g, hg, hq⟩ := out_bind_val hq
      cases g with
      | none => simp only [Out.val.injEq] at hq; subst hq; simp at hst
      | some i =>
        simp only [hcb] at hq
        split at hq
        · obtain ⟨m, hm, hq⟩ := out_bind_val hq
          simp only [Out.val.injEq] at hq; subst hq; simp at hst
        · simp only [Out.val.injEq] at hq; subst hq; simp at hst
  | store k v o =>
    refine ⟨Or.inl ⟨k, v, o, rfl⟩, hfin fun hnw => ?_⟩
    obtain ⟨⟨req, hreq⟩, hm⟩ := hok
    have hr' : onKey c n k (storeOp c (mem (shardIdx c n k)) now k v o) shs = .val r := hr
    obtain ⟨q, hq, rfl⟩ := onKey_val hr'
    have hi := shardIdx_lt c hn k
    have hinv := h.allInv hv hn _ hi
    rcases storeOp_spec hv (mem (shardIdx c n k)) now k v o hinv hreq (hm _) with ⟨q', hq', _, _, hsp⟩ | ha
    · rw [hq] at hq'
      simp only [Out.val.injEq] at hq'
      subst hq'
      obtain ⟨ho, hp⟩ := hsp (hnw.self hi)
      obtain ⟨pr, _, h2, h3, _, h5⟩ := hp ⟨shView (shs (shardIdx c n k)), (shs (shardIdx c n k)).cas⟩ ⟨shView_rep hinv ho, rfl⟩
      have hst' : q.status = .nomem := hst
      show q.evs = []
      rw [h3]
      rw [h2] at hst'
      split at h5
      · rw [h5]
      · exfalso
        unfold PStore at h5
        simp only [] at h5
        split at h5
        · split at h5
          · subst h5; simp at hst'
          · split at h5 <;> (subst h5; simp at hst')
        · split at h5
          · subst h5; simp at hst'
          · rcases h5 with h5 | ⟨_, _, v, ev, _, _, _, h5⟩ <;> (subst h5; simp at hst')
    · rw [hq] at ha; simp at ha
  | delete k cb =>
    exfalso
    have hr' : onKey c n k (deleteOp c (mem (shardIdx c n k)) now k cb) shs = .val r := hr
    obtain ⟨q, hq, rfl⟩ := onKey_val hr'
    exact delete_nomem hq hst
  | iter one cb => exact absurd hst (iter_nomem hr)
  | sweep one =>
    exfalso
    unfold exec at hr
    obtain ⟨⟨q, sw, kp⟩, hq, hr⟩ := out_bind_val hr
    simp only [Out.val.injEq] at hr
    subst hr
    exact sweep_nomem hq hst
  | clear one => exact absurd hst (clear_nomem hr)

namespace Example

/-- Entries can be allocated, tables cannot. -/
def noTbl : Nat → Mem := fun _ => ⟨true, false, false⟩

def fill (k : Nat) : List Call := (List.range k).map fun i => ⟨.store [UInt8.ofNat i] [1] (sOpts 0), noTbl, 100⟩

/-- Forty-eight entries fit the first table. -/
theorem fill_ok (k : Nat) : ∀ x ∈ fill k, OpOk x.mem x.now x.op := by
  intro x hx
  obtain ⟨i, _, rfl⟩ := List.mem_map.1 hx
  exact ⟨⟨0, rfl⟩, fun _ => rfl⟩

end Example

/-- With a full first table and no memory for a larger one, a store of a new key reports `nomem`. -/
example : ∃ shs rs r, runCalls Example.ctx2 1 (Example.fill 48) (newCache Example.ctx2) = .val (shs, rs) ∧
    Reach Example.ctx2 1 shs ∧ count 1 shs = 48 ∧
    exec Example.ctx2 1 Example.noTbl 101 (.store [200] [9] (Example.sOpts 0)) shs = .val r ∧ r.status = .nomem ∧ NoWrap 1 r.shs := by
  obtain ⟨⟨x, r⟩, hr, h⟩ := Out.of_test (o := (runCalls Example.ctx2 1 (Example.fill 48) (newCache Example.ctx2)).bind fun x =>
      (exec Example.ctx2 1 Example.noTbl 101 (.store [200] [9] (Example.sOpts 0)) x.1).bind fun r => .val (x, r))
    (p := fun x => count 1 x.1.1 = 48 ∧ x.2.status = .nomem ∧ noWrapB 1 x.2.shs = true) (by decide +kernel)
  obtain ⟨y, hy, hr⟩ := out_bind_val hr
  obtain ⟨q, hq, hr⟩ := out_bind_val hr
  simp only [Out.val.injEq, Prod.mk.injEq] at hr
  obtain ⟨rfl, rfl⟩ := hr
  exact ⟨y.1, y.2, q, hy, runCalls_reach .new (Example.fill_ok 48) hy, h.1, hq, h.2.1, noWrapB_iff.1 h.2.2⟩

end Verif.Cache
