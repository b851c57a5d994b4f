import Mathlib.Algebra.Order.Ring.Rat
import Mathlib.Tactic.Linarith
import Mathlib.Tactic.Positivity
import Mathlib.Tactic.FieldSimp
import Verif.Cache.Counters

/-!
C93: the thread that removes expired entries once a second, `autosweepticker` in `/repo/src/main.c:372-394`, and `pogocache_sweep_poll` in
`/repo/src/pogocache.c:2064-2103`.

Simplification: the poll and the sweep are one step here (the code releases the lock of the shard in between; `Verif.Conc` treats interleavings).
-/

namespace Verif.Cache

open Verif.Map Verif.Shard Function

/-- `mix13`, `/repo/src/pogocache.c:144-151`, on 64 bits. -/
def mix13 (key : Nat) : Nat :=
  let key := key ^^^ (key >>> 30)
  let key := key * 0xbf58476d1ce4e5b9 % 2 ^ 64
  let key := key ^^^ (key >>> 27)
  let key := key * 0x94d049bb133111eb % 2 ^ 64
  key ^^^ (key >>> 31)

/-- The conversion of `int64_t` to `uint64_t`. -/
def u64 (x : Int) : Nat := (x % 2 ^ 64).toNat

/-- The loop of `sweeppollop`, `/repo/src/pogocache.c:2071-2079`; `rem` iterations remain: entries looked at, and expired ones. -/
def pollLoop (m : Tbl) (bidx : Nat) (now : Int) (pollsize : Nat) : Nat → Nat → Nat → Nat → Nat × Nat
  | 0, _, count, dead => (count, dead)
  | rem + 1, i, count, dead =>
    if count < pollsize then
      let bkt := m.buckets ((bidx + i) % m.nbuckets)
      if bkt.dib = 0 then pollLoop m bidx now pollsize rem (i + 1) count dead
      else pollLoop m bidx now pollsize rem (i + 1) (count + 1) (dead + if bkt.ent.alive now then 0 else 1)
    else (count, dead)

/-- `sweeppollop`, `/repo/src/pogocache.c:2064-2086`, for shard `i`: the numbers whose ratio it computes. -/
def sweepPollOp (s : Sh) (i : Nat) (now : Int) (pollsize : Nat) : Nat × Nat :=
  pollLoop s.map (mix13 (u64 (now + i)) % s.map.nbuckets) now pollsize s.map.nbuckets 0 0 0

/-- The shard looked at, `/repo/src/pogocache.c:2097`. -/
def polled (n : Nat) (now : Int) : Nat := mix13 (u64 now) % n

/-- The `double` nearest to a number, as far as it matters here. -/
structure Rounds (fl : Rat → Rat) : Prop where
  zero : fl 0 = 0
  mono : ∀ x y, x ≤ y → fl x ≤ fl y
  near : ∀ x, 1 / 100 ≤ x → x ≤ 100 → |fl x - x| ≤ x / 2 ^ 53

/-- The value of `pogocache_sweep_poll`, `/repo/src/pogocache.c:2080-2084,2102`. -/
def percent (fl : Rat → Rat) (p : Nat × Nat) : Rat := if p.1 = 0 then 0 else fl ((p.2 : Rat) / (p.1 : Rat))

/-- One round of `autosweepticker`, `/repo/src/main.c:379-389`: the shards, and whether it swept. -/
def tick (c : Ctx) (n : Nat) (fl : Rat → Rat) (mem : Nat → Mem) (now : Int) (shs : Shards) : Out (Shards × Bool) :=
  let i := polled n now
  if percent fl (sweepPollOp (shs i) i now 20) > fl (1 / 10) then
    (exec c n mem now (.sweep none) shs).bind fun r => .val (r.shs, true)
  else .val (shs, false)

/-! ### What is looked at -/

/-- The entry of a used bucket. -/
def used (b : Bucket) : Option Ent := if b.dib = 0 then none else some b.ent

/-- Entries found from position `i` on. -/
def seg (m : Tbl) (bidx i rem : Nat) : List Ent := (List.range' i rem).filterMap fun j => used (m.buckets ((bidx + j) % m.nbuckets))

theorem seg_succ (m : Tbl) (bidx i rem : Nat) :
    seg m bidx i (rem + 1) = (used (m.buckets ((bidx + i) % m.nbuckets))).toList ++ seg m bidx (i + 1) rem := by
  unfold seg
  rw [List.range'_succ, List.filterMap_cons]
  cases used (m.buckets ((bidx + i) % m.nbuckets)) <;> rfl

theorem pollLoop_eq (m : Tbl) (bidx : Nat) (now : Int) (ps : Nat) : ∀ rem i count dead, count ≤ ps →
    pollLoop m bidx now ps rem i count dead =
      (count + ((seg m bidx i rem).take (ps - count)).length, dead + ((seg m bidx i rem).take (ps - count)).countP fun e => !e.alive now) := by
  intro rem
  induction rem with
  | zero => intro i count dead _; simp [pollLoop, seg]
  | succ rem ih =>
    intro i count dead hc
    rw [seg_succ]
    unfold pollLoop
    simp only []
    split
    · rename_i hlt
      split
      · rename_i h0
        rw [ih _ _ _ hc]
        simp [used, h0]
      · rename_i h0
        rw [ih _ _ _ (by omega)]
        have hs : ps - count = ps - (count + 1) + 1 := by omega
        simp only [used, h0, if_false, Option.toList_some, List.singleton_append]
        rw [hs, List.take_succ_cons, List.length_cons, List.countP_cons]
        cases (m.buckets ((bidx + i) % m.nbuckets)).ent.alive now <;> simp <;> omega
    · rename_i hlt
      have : ps - count = 0 := by omega
      simp [this]

theorem turned (b : Nat) {n : Nat} (hn : 0 < n) : ((List.range n).map fun j => (b + j) % n).Perm (List.range n) := by
  refine List.Subperm.perm_of_length_le (List.subperm_of_subset ?_ ?_) (by simp)
  · refine List.Nodup.map_on ?_ List.nodup_range
    intro x hx y hy hxy
    have hx := List.mem_range.1 hx
    have hy := List.mem_range.1 hy
    have : (b + x) % n = (b + y) % n := hxy
    have h2 : x % n = y % n := Nat.ModEq.add_left_cancel' b this
    rwa [Nat.mod_eq_of_lt hx, Nat.mod_eq_of_lt hy] at h2
  · intro x hx
    obtain ⟨j, _, rfl⟩ := List.mem_map.1 hx
    exact List.mem_range.2 (Nat.mod_lt _ hn)

theorem cont_list (b : Nat → Bucket) (l : List Nat) : ((l.filterMap fun j => used (b j) : List Ent) : Multiset Ent) = (l.map fun j => bc (b j)).sum := by
  induction l with
  | nil => rfl
  | cons a l ih =>
    rw [List.filterMap_cons, List.map_cons, List.sum_cons, ← ih]
    unfold used bc
    split
    · rename_i h; split at h <;> simp_all
    · rename_i e h
      split at h
      · cases h
      · cases h; simp_all

/-- The entries looked at, in order, are all entries of the shard. -/
theorem seg_all {m : Tbl} (hn : 0 < m.nbuckets) (bidx : Nat) : ((seg m bidx 0 m.nbuckets : List Ent) : Multiset Ent) = m.cont := by
  have h1 : seg m bidx 0 m.nbuckets = ((List.range m.nbuckets).map fun j => (bidx + j) % m.nbuckets).filterMap fun j => used (m.buckets j) := by
    unfold seg
    rw [List.filterMap_map, ← List.range_eq_range']
    rfl
  rw [h1, Multiset.coe_eq_coe.2 ((turned bidx hn).filterMap _), cont_list]
  unfold Tbl.cont cont
  exact (Multiset.sum_coe _).symm

/-! ### The ratio -/

theorem over_iff {fl : Rat → Rat} (h : Rounds fl) {count dead : Nat} (hc : count ≤ 20) (hd : dead ≤ count) :
    percent fl (count, dead) > fl (1 / 10) ↔ dead * 10 > count := by
  unfold percent
  simp only []
  by_cases h0 : count = 0
  · rw [if_pos h0]
    subst h0
    have : fl 0 ≤ fl (1 / 10) := h.mono _ _ (by norm_num)
    rw [h.zero] at this
    constructor
    · intro hlt; exact absurd hlt (not_lt.2 this)
    · intro hlt; omega
  · rw [if_neg h0]
    have hcp : (0 : Rat) < count := by exact_mod_cast Nat.pos_of_ne_zero h0
    constructor
    · intro hlt
      by_contra hn
      have h1 : (dead : Rat) / count ≤ 1 / 10 := by
        rw [div_le_iff₀ hcp]
        have : (dead * 10 : Rat) ≤ count := by exact_mod_cast not_lt.1 hn
        linarith
      exact absurd (h.mono _ _ h1) (not_le.2 hlt)
    · intro hlt
      have hc20 : (count : Rat) ≤ 20 := by exact_mod_cast hc
      have hd' : (count : Rat) + 1 ≤ dead * 10 := by exact_mod_cast hlt
      have h1 : 21 / 200 ≤ (dead : Rat) / count := by
        rw [le_div_iff₀ hcp]
        linarith
      have h2 := h.mono _ _ h1
      have h3 := abs_le.1 (h.near (21 / 200) (by norm_num) (by norm_num))
      have h4 := abs_le.1 (h.near (1 / 10) (by norm_num) (by norm_num))
      have h5 : (21 / 200 : Rat) / 2 ^ 53 < 1 / 1000 := by norm_num
      have h6 : (1 / 10 : Rat) / 2 ^ 53 < 1 / 1000 := by norm_num
      show fl (1 / 10) < _
      linarith [h3.1, h4.2]

/-! ### The claims -/

/-- `K` lists the keys stored in shard `i`, also those whose time is over. -/
def Lists (c : Ctx) (n : Nat) (shs : Shards) (i : Nat) (K : List Bytes) : Prop :=
  K.Nodup ∧ ∀ k, k ∈ K ↔ shardIdx c n k = i ∧ view c n shs k ≠ none

/-- How many of them are over. -/
def over (c : Ctx) (n : Nat) (shs : Shards) (now : Int) (K : List Bytes) : Nat := (K.filter fun k => (liveView c n shs now k).isNone).length

/-- The sample: some list of all entries of the shard, of which the first 20 are looked at. -/
theorem sample {c : Ctx} (hv : c.Valid) {n : Nat} (hn : 0 < n) {shs : Shards} (h : Reach c n shs) (hnw : NoWrap n shs) {i : Nat} (hi : i < n) (now : Int)
    {K : List Bytes} (hK : Lists c n shs i K) :
    ∃ E : List Ent, E.length = K.length ∧ E.countP (fun e => !e.alive now) = over c n shs now K ∧
      sweepPollOp (shs i) i now 20 = ((E.take 20).length, (E.take 20).countP fun e => !e.alive now) := by
  have hinv := h.allInv hv hn i hi
  have ho := hnw i hi
  have hpl := h.placed hv hn hnw
  have hpos : 0 < (shs i).map.nbuckets := by have := hinv.ge; omega
  refine ⟨seg (shs i).map (mix13 (u64 (now + i)) % (shs i).map.nbuckets) 0 (shs i).map.nbuckets, ?_, ?_, ?_⟩
  rotate_left 2
  · unfold sweepPollOp
    rw [pollLoop_eq _ _ _ _ _ _ _ _ (Nat.zero_le _)]
    simp
  all_goals
    have hall := seg_all hpos (mix13 (u64 (now + i)) % (shs i).map.nbuckets)
    generalize seg (shs i).map (mix13 (u64 (now + i)) % (shs i).map.nbuckets) 0 (shs i).map.nbuckets = E at hall
    have hmem : ∀ e, e ∈ E ↔ e ∈ (shs i).map.cont := fun e => by rw [← hall]; exact Multiset.mem_coe.symm
    have hrep := shView_rep hinv ho
    have hperm : (E.map Ent.key).Perm K := by
      refine (List.perm_ext_iff_of_nodup ?_ hK.1).2 ?_
      · have := hinv.nodup ho
        rw [← hall] at this
        exact Multiset.coe_nodup.1 (by simpa using this)
      · intro k
        rw [hK.2, List.mem_map]
        constructor
        · rintro ⟨e, he, rfl⟩
          have hs := (hrep e.key e).2 ⟨(hmem e).1 he, rfl⟩
          have hx := hpl i hi _ _ hs
          refine ⟨hx, ?_⟩
          unfold view
          rw [hx, hs]; simp
        · rintro ⟨hx, hne⟩
          obtain ⟨e, he⟩ := Option.ne_none_iff_exists'.1 hne
          unfold view at he
          rw [hx] at he
          obtain ⟨h1, h2⟩ := (hrep k e).1 he
          exact ⟨e, (hmem e).2 h1, h2⟩
  · rw [← hperm.length_eq, List.length_map]
  · unfold over
    rw [← List.countP_eq_length_filter, ← hperm.countP_eq, List.countP_map]
    refine List.countP_congr ?_
    intro e he
    have hs := (hrep e.key e).2 ⟨(hmem e).1 he, rfl⟩
    have hx := hpl i hi _ _ hs
    have hview : view c n shs e.key = some e := by unfold view; rw [hx, hs]
    simp only [comp_apply, liveView, hview]
    have := alive_iff (e := e) (t := now)
    unfold LiveAt at this
    by_cases ha : e.alive now = true
    · simp [ha, Option.filter, this.1 ha]
    · have hb := ha
      rw [this] at hb
      simp [Option.filter, hb, ha]

/-- **C93**: a round of the thread either changes nothing or removes all keys whose time is over, in all shards, and nothing else; it does so exactly if more than a tenth of
the (at most twenty) keys looked at are over. -/
theorem tick_spec {c : Ctx} (hv : c.Valid) {n : Nat} (hn : 0 < n) {fl : Rat → Rat} (hf : Rounds fl) {mem : Nat → Mem} {now : Int} {shs shs' : Shards} {b : Bool}
    (h : Reach c n shs) (hnw : NoWrap n shs) (hr : tick c n fl mem now shs = .val (shs', b)) (hnw' : NoWrap n shs') {K : List Bytes} (hK : Lists c n shs (polled n now) K) :
    (∀ k, view c n shs' k = if b then liveView c n shs now k else view c n shs k) ∧
    ∃ looked dead, looked = min 20 K.length ∧ dead ≤ over c n shs now K ∧ over c n shs now K ≤ dead + (K.length - looked) ∧ (b = true ↔ dead * 10 > looked) := by
  have hi : polled n now < n := Nat.mod_lt _ hn
  obtain ⟨E, e1, e2, e3⟩ := sample hv hn h hnw hi now hK
  have hlen : (E.take 20).length = min 20 K.length := by rw [List.length_take, e1]
  have hsplit : (E.take 20).countP (fun e => !e.alive now) + (E.drop 20).countP (fun e => !e.alive now) = over c n shs now K := by
    rw [← List.countP_append, List.take_append_drop, e2]
  have hdrop : (E.drop 20).countP (fun e => !e.alive now) ≤ K.length - 20 := by
    refine List.countP_le_length.trans ?_
    rw [List.length_drop, e1]
  have hdl : (E.take 20).countP (fun e => !e.alive now) ≤ (E.take 20).length := List.countP_le_length
  have hover := over_iff hf (count := (E.take 20).length) (dead := (E.take 20).countP fun e => !e.alive now) (by omega) hdl
  unfold tick at hr
  simp only [] at hr
  rw [e3] at hr
  refine ⟨?_, (E.take 20).length, (E.take 20).countP (fun e => !e.alive now), hlen, by omega, by omega, ?_⟩
  · split at hr
    · obtain ⟨r, h1, h2⟩ := out_bind_val hr
      simp only [Out.val.injEq, Prod.mk.injEq] at h2
      obtain ⟨rfl, rfl⟩ := h2
      obtain ⟨⟨q, sw, kp⟩, h3, h4⟩ := out_bind_val h1
      simp only [Out.val.injEq] at h4
      subst h4
      intro k
      rw [(sweep_removes_expired_partial hv hn h h3 hnw').1 k, if_pos (show shardIdx c n k ∈ scope n none from List.mem_range.2 (shardIdx_lt c hn k)), if_pos rfl]
    · simp only [Out.val.injEq, Prod.mk.injEq] at hr
      obtain ⟨rfl, rfl⟩ := hr
      intro k; simp
  · rw [← hover]
    split at hr
    · rename_i hlt
      obtain ⟨r, h1, h2⟩ := out_bind_val hr
      simp only [Out.val.injEq, Prod.mk.injEq] at h2
      exact ⟨fun _ => hlt, fun _ => h2.2.symm⟩
    · rename_i hlt
      simp only [Out.val.injEq, Prod.mk.injEq] at hr
      rw [← hr.2]
      exact ⟨fun hx => by simp at hx, fun hx => absurd hx hlt⟩

/-- **C93**, in part: "if more than 10% of the shard's entries are expired then immediately sweep all the shards" (`/repo/src/main.c:376-378`), exactly then, if the shard has at
most 20 entries. -/
theorem tick_exact_partial {c : Ctx} (hv : c.Valid) {n : Nat} (hn : 0 < n) {fl : Rat → Rat} (hf : Rounds fl) {mem : Nat → Mem} {now : Int} {shs shs' : Shards} {b : Bool}
    (h : Reach c n shs) (hnw : NoWrap n shs) (hr : tick c n fl mem now shs = .val (shs', b)) (hnw' : NoWrap n shs') {K : List Bytes} (hK : Lists c n shs (polled n now) K)
    (h20 : K.length ≤ 20) : (∀ k, view c n shs' k = if over c n shs now K * 10 > K.length then liveView c n shs now k else view c n shs k) := by
  obtain ⟨h1, looked, dead, h2, h3, h4, h5⟩ := tick_spec hv hn hf h hnw hr hnw' hK
  have hd : dead = over c n shs now K := by omega
  have hl : looked = K.length := by omega
  subst hd hl
  intro k
  rw [h1 k]
  by_cases hb : b = true
  · rw [if_pos hb, if_pos (h5.1 hb)]
  · rw [if_neg hb, if_neg (fun hx => hb (h5.2 hx))]

/-- **C93**, in part: in a shard of any size, if at most 17 keys are not over and at least three are, everything that is over is removed. -/
theorem tick_mostly_over_partial {c : Ctx} (hv : c.Valid) {n : Nat} (hn : 0 < n) {fl : Rat → Rat} (hf : Rounds fl) {mem : Nat → Mem} {now : Int} {shs shs' : Shards} {b : Bool}
    (h : Reach c n shs) (hnw : NoWrap n shs) (hr : tick c n fl mem now shs = .val (shs', b)) (hnw' : NoWrap n shs') {K : List Bytes} (hK : Lists c n shs (polled n now) K)
    (h3 : 3 ≤ over c n shs now K) (h17 : K.length ≤ over c n shs now K + 17) (k : Bytes) : view c n shs' k = liveView c n shs now k := by
  obtain ⟨h1, looked, dead, h2, h3, h4, h5⟩ := tick_spec hv hn hf h hnw hr hnw' hK
  have hb : b = true := h5.2 (by omega)
  rw [h1 k, if_pos hb]

/-- A round always ends. -/
theorem tick_ends {c : Ctx} (hv : c.Valid) {n : Nat} (hn : 0 < n) {fl : Rat → Rat} {mem : Nat → Mem} {now : Int} {shs : Shards} (h : Reach c n shs) :
    ∃ shs' b, tick c n fl mem now shs = .val (shs', b) ∧ Reach c n shs' := by
  unfold tick
  simp only []
  split
  · obtain ⟨r, new, h1, h2, _⟩ := sweepShards_scan hv mem now (scope n none) (scope_nodup n none) (scope_lt n none) [] shs (h.allInv hv hn)
    have he : exec c n mem now (.sweep none) shs = .val r := by
      unfold exec
      simp only []
      rw [h1]; rfl
    rw [he]
    exact ⟨r.shs, true, rfl, .call (op := .sweep none) h trivial he⟩
  · exact ⟨shs, false, rfl, h⟩

/-! ### Concrete cases -/

theorem rounds_id : Rounds (fun x => x) := ⟨rfl, fun _ _ h => h, fun x h _ => by rw [sub_self, abs_zero]; apply div_nonneg <;> [linarith; norm_num]⟩

/-- Keys of a shard can be listed. -/
theorem lists_exist {c : Ctx} (hv : c.Valid) {n : Nat} (hn : 0 < n) {shs : Shards} (h : Reach c n shs) (hnw : NoWrap n shs) {i : Nat} (hi : i < n) :
    ∃ K, Lists c n shs i K ∧ K.length = countOp (shs i) := by
  have hpl := h.placed hv hn hnw
  have hai := h.allInv hv hn
  refine ⟨((shs i).map.cont.map Ent.key).toList, ⟨?_, ?_⟩, ?_⟩
  · rw [← Multiset.coe_nodup, Multiset.coe_toList]
    exact (hai i hi).nodup (hnw i hi)
  · intro k
    rw [cont_keys (hai i hi) (hnw i hi)]
    constructor
    · intro hk
      obtain ⟨e, he⟩ := Option.ne_none_iff_exists'.1 hk
      have hx := hpl i hi k e he
      refine ⟨hx, ?_⟩
      unfold view
      rw [hx]; exact hk
    · rintro ⟨rfl, hk⟩
      exact hk
  · rw [Multiset.length_toList, Multiset.card_map]
    exact ((hai i hi).cnt (hnw i hi)).symm

namespace Example

/-- A hash function that gives each key of one byte its own bucket. -/
def ctxB : Ctx := ⟨true, false, false, true, 75, fun k => (k.headD 0).toNat⟩

/-- Twenty keys that stay, and 25 keys whose time is over at 105. -/
def many : List Call :=
  (List.range 45).map fun i => ⟨.store [UInt8.ofNat i] [1] (sOpts (if i < 20 then 0 else 5)), okMem, 100⟩

theorem many_ok : ∀ x ∈ many, OpOk x.mem x.now x.op := by
  intro x hx
  unfold many at hx
  obtain ⟨i, _, rfl⟩ := List.mem_map.1 hx
  refine ⟨?_, fun _ => rfl⟩
  by_cases h : i < 20
  · exact ⟨0, by simp only [if_pos h]; decide⟩
  · exact ⟨105, by simp only [if_neg h]; decide⟩

end Example

/-- **C93** is false for larger shards: of 45 keys, all in one shard, 25 are over, and yet a round does not sweep, since the first twenty it meets are not. -/
theorem more_than_half_not_swept {fl : Rat → Rat} (hf : Rounds fl) (mem : Nat → Mem) : ∃ shs, Reach Example.ctxB 1 shs ∧ NoWrap 1 shs ∧ count 1 shs = 45 ∧
    tick Example.ctxB 1 fl mem 205 shs = .val (shs, false) ∧
    ((List.range 45).filter fun i => (view Example.ctxB 1 shs [UInt8.ofNat i]).isSome && (liveView Example.ctxB 1 shs 205 [UInt8.ofNat i]).isNone).length = 25 := by
  obtain ⟨⟨shs, rs⟩, hr, h⟩ := Out.of_test (o := runCalls Example.ctxB 1 Example.many (newCache Example.ctxB))
    (p := fun x => noWrapB 1 x.1 = true ∧ count 1 x.1 = 45 ∧ sweepPollOp (x.1 0) 0 205 20 = (20, 0) ∧
      ((List.range 45).filter fun i => (view Example.ctxB 1 x.1 [UInt8.ofNat i]).isSome && (liveView Example.ctxB 1 x.1 205 [UInt8.ofNat i]).isNone).length = 25) (by decide +kernel)
  obtain ⟨h1, h2, h3, h4⟩ := h
  refine ⟨shs, runCalls_reach .new Example.many_ok hr, noWrapB_iff.1 h1, h2, ?_, h4⟩
  unfold tick
  simp only []
  rw [show polled 1 205 = 0 from Nat.mod_one _, h3, if_neg]
  rw [over_iff hf (by omega) (by omega)]
  omega

namespace Example

/-- A key that stays, and five whose time is over at 105. -/
def few : List Call :=
  (List.range 6).map fun i => ⟨.store [UInt8.ofNat i] [1] (sOpts (if i < 1 then 0 else 5)), okMem, 100⟩

theorem few_ok : ∀ x ∈ few, OpOk x.mem x.now x.op := by
  intro x hx
  unfold few at hx
  obtain ⟨i, _, rfl⟩ := List.mem_map.1 hx
  refine ⟨?_, fun _ => rfl⟩
  by_cases h : i < 1
  · exact ⟨0, by simp only [if_pos h]; decide⟩
  · exact ⟨105, by simp only [if_neg h]; decide⟩

end Example

/-- The hypotheses of the theorems above are met: six keys, five of them over, are swept. -/
example : ∃ shs shs' K, Reach Example.ctxB 1 shs ∧ NoWrap 1 shs ∧ NoWrap 1 shs' ∧ tick Example.ctxB 1 (fun x => x) Example.okMem 205 shs = .val (shs', true) ∧
    Lists Example.ctxB 1 shs (polled 1 205) K ∧ K.length = 6 ∧ 3 ≤ over Example.ctxB 1 shs 205 K ∧ K.length ≤ over Example.ctxB 1 shs 205 K + 17 ∧ count 1 shs' = 1 := by
  obtain ⟨⟨shs, shs', b⟩, hr, h⟩ := Out.of_test
    (o := (runCalls Example.ctxB 1 Example.few (newCache Example.ctxB)).bind fun x =>
      (exec Example.ctxB 1 Example.okMem 205 (.sweep none) x.1).bind fun r => .val (x.1, r.shs, sweepPollOp (x.1 0) 0 205 20))
    (p := fun x => noWrapB 1 x.1 = true ∧ noWrapB 1 x.2.1 = true ∧ countOp (x.1 0) = 6 ∧ count 1 x.2.1 = 1 ∧ x.2.2 = (6, 5) ∧
      ∀ i < 5, view Example.ctxB 1 x.1 [UInt8.ofNat (i + 1)] ≠ none ∧ liveView Example.ctxB 1 x.1 205 [UInt8.ofNat (i + 1)] = none) (by decide +kernel)
  obtain ⟨x, h1, hr⟩ := out_bind_val hr
  obtain ⟨r, h2, hr⟩ := out_bind_val hr
  simp only [Out.val.injEq, Prod.mk.injEq] at hr
  obtain ⟨rfl, rfl, rfl⟩ := hr
  obtain ⟨a1, a2, a3, a4, a5, a6⟩ := h
  have hv : Example.ctxB.Valid := ⟨by decide, by decide⟩
  have hre := runCalls_reach .new Example.few_ok h1
  obtain ⟨K, hK, hl⟩ := lists_exist hv (by omega) hre (noWrapB_iff.1 a1) (i := 0) (by omega)
  have hp : polled 1 205 = 0 := Nat.mod_one _
  have h3 : 3 ≤ over Example.ctxB 1 x.1 205 K := by
    have hs : ([[1], [2], [3]] : List Bytes) ⊆ K.filter fun k => (liveView Example.ctxB 1 x.1 205 k).isNone := by
      intro k hk
      rw [List.mem_filter, hK.2]
      simp only [List.mem_cons, List.not_mem_nil, or_false] at hk
      rcases hk with rfl | rfl | rfl
      · exact ⟨⟨Nat.mod_one _, (a6 0 (by omega)).1⟩, by simpa using (a6 0 (by omega)).2⟩
      · exact ⟨⟨Nat.mod_one _, (a6 1 (by omega)).1⟩, by simpa using (a6 1 (by omega)).2⟩
      · exact ⟨⟨Nat.mod_one _, (a6 2 (by omega)).1⟩, by simpa using (a6 2 (by omega)).2⟩
    have := (List.subperm_of_subset (by decide) hs).length_le
    exact this
  simp only [] at a3
  refine ⟨x.1, r.shs, K, hre, noWrapB_iff.1 a1, noWrapB_iff.1 a2, ?_, by rw [hp]; exact hK, by omega, h3, by omega, a4⟩
  unfold tick
  simp only []
  simp only [] at a5
  rw [hp, a5, if_pos ((over_iff rounds_id (by omega) (by omega)).2 (by omega)), h2]
  rfl

/-- **C93** is false for sparse caches: the only key, in the second of two shards, is over, but the round looks at the first shard, finds nothing there and sweeps nothing. -/
theorem all_over_not_swept {fl : Rat → Rat} (hf : Rounds fl) (mem : Nat → Mem) : ∃ shs, Reach Example.ctx 2 shs ∧ NoWrap 2 shs ∧ count 2 shs = 1 ∧
    tick Example.ctx 2 fl mem 205 shs = .val (shs, false) ∧ view Example.ctx 2 shs [2] ≠ none ∧ liveView Example.ctx 2 shs 205 [2] = none := by
  obtain ⟨⟨shs, rs⟩, hr, h⟩ := Out.of_test (o := runCalls Example.ctx 2 [⟨.store [2] [1] (Example.sOpts 5), Example.okMem, 100⟩] (newCache Example.ctx))
    (p := fun x => noWrapB 2 x.1 = true ∧ count 2 x.1 = 1 ∧ sweepPollOp (x.1 0) 0 205 20 = (0, 0) ∧ view Example.ctx 2 x.1 [2] ≠ none ∧ liveView Example.ctx 2 x.1 205 [2] = none)
    (by decide +kernel)
  obtain ⟨h1, h2, h3, h4, h5⟩ := h
  refine ⟨shs, runCalls_reach .new ?_ hr, noWrapB_iff.1 h1, h2, ?_, h4, h5⟩
  · intro x hx
    rw [List.mem_singleton.1 hx]
    exact ⟨⟨105, by decide⟩, fun _ => rfl⟩
  · unfold tick
    simp only []
    rw [show polled 2 205 = 0 by decide +kernel, h3, if_neg]
    rw [over_iff hf (by omega) (by omega)]
    omega

end Verif.Cache
