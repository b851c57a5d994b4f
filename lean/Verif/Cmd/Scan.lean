import Mathlib.Tactic.Common
import Verif.Cmd.Safe
import Verif.Cache.Cursor
import Verif.Glob.Props

/-!
C71: following the cursor of SCAN returns every key that matches.
-/

namespace Verif.Cmd

open Verif.Num Verif.Resp Verif.Map Verif.Shard Verif.Cache

/-! ### Model -/

/-- The loop of `scan_work`, `/repo/src/cmds.c:2149-2170`, with `want` for `match`: until `count` keys are found or the cursor is at its end.  Result: cache,
notifications, keys, cursor. -/
def scanWork (n : Nat) (now : Int) (want : Bytes → Bool) : Nat → Nat → Nat → Shards → Out (Shards × List Ev × List Bytes × Nat)
  | 0, _, _, _ => .hang
  | fuel + 1, count, cursor, shs =>
    if count = 0 then .val (shs, [], [], cursor)
    else (cursorNext n now cursor shs).bind fun x =>
      match x.2.2.1 with
      | none => .val (x.1, x.2.1, [], x.2.2.2)
      | some e => (scanWork n now want fuel (if want e.key then count - 1 else count) x.2.2.2 x.1).bind fun y =>
          .val (y.1, x.2.1 ++ y.2.1, (if want e.key then e.key :: y.2.2.1 else y.2.2.1), y.2.2.2)

/-- Enough steps: more than there are buckets. -/
def scanSteps (n : Nat) (shs : Shards) : Nat := rank (fun j => (shs j).map.nbuckets) n 0 + 2

/-- The test of `scan_work`, `/repo/src/cmds.c:2160`. -/
def scanWants (pattern key : Bytes) : Bool := Glob.globMatch pattern key = some true

/-- SCAN commands one after the other, with their times and counts, each with the cursor the one before has returned, until that is 0.  Result: cache,
notifications, keys, whether the cursor is 0. -/
def scanCalls (n : Nat) (pattern : Bytes) : List (Int × Nat) → Nat → Shards → Out (Shards × List Ev × List Bytes × Bool)
  | [], _, shs => .val (shs, [], [], false)
  | x :: l, cursor, shs => (scanWork n x.1 (scanWants pattern) (scanSteps n shs) x.2 cursor shs).bind fun r =>
    if r.2.2.2 = 0 then .val (r.1, r.2.1, r.2.2.1, true)
    else (scanCalls n pattern l r.2.2.2 r.1).bind fun q => .val (q.1, r.2.1 ++ q.2.1, r.2.2.1 ++ q.2.2.1, q.2.2.2)

/-! ### Proofs -/

/-- A state of the cache and a cursor in it. -/
structure Pos (c : Ctx) (n : Nat) (shs : Shards) (cur s i : Nat) : Prop where
  all : AllInv c n shs
  nw : NoWrap n shs
  sz : ∀ j, j < n → (shs j).map.nbuckets < 2 ^ 31
  eq : cur = s * 2 ^ 32 + i
  hs : s < n
  hi : i ≤ (shs s).map.nbuckets

/-- The keys of entries that are wanted. -/
def wantedKeys (want : Bytes → Bool) (es : List Ent) : List Bytes := (es.filter fun e => want e.key).map Ent.key

theorem wantedKeys_cons (want : Bytes → Bool) (e : Ent) (es : List Ent) :
    wantedKeys want (e :: es) = if want e.key then e.key :: wantedKeys want es else wantedKeys want es := by
  unfold wantedKeys
  by_cases h : want e.key = true
  · simp [h]
  · simp [h]

theorem wantedKeys_append (want : Bytes → Bool) (es fs : List Ent) : wantedKeys want (es ++ fs) = wantedKeys want es ++ wantedKeys want fs := by
  simp [wantedKeys]

/-- One `pogocache_entry_iter`. -/
theorem next_spec {c : Ctx} (hv : c.Valid) {n : Nat} (hn : n < 2 ^ 31) (now : Int) {shs : Shards} {cur s i : Nat} (hp : Pos c n shs cur s i) :
    ∃ shs' evs oe cur', cursorNext n now cur shs = .val (shs', evs, oe, cur') ∧ (∀ j, (shs' j).map.nbuckets = (shs j).map.nbuckets) ∧
      (oe = none → cur' = 0) ∧
      ∀ e, oe = some e → ∃ s' i', Pos c n shs' cur' s' i' ∧ cur' ≠ 0 ∧
        rank (fun j => (shs j).map.nbuckets) s i < rank (fun j => (shs j).map.nbuckets) s' i' := by
  have hcur : cursorNext n now cur shs = entryIterLoop n now (n + 1) s i shs := by
    have := hp.sz s hp.hs
    have := hp.hi
    have := hp.hs
    unfold cursorNext
    have h1 : cur / 2 ^ 32 = s := by rw [hp.eq]; omega
    have h2 : cur % 2 ^ 32 = i := by rw [hp.eq]; omega
    simp only [h1, h2]
    rw [if_neg (by omega), if_neg (by omega)]
  obtain ⟨shs1, evs, oe, cur', a1, a2, a3, a4, a5, a6, a7, a8, a9⟩ := loop_spec hv now (n + 1) s i shs hp.all hp.nw hp.hs (by omega)
    (K := fun _ => True) (fun _ _ _ _ _ _ => trivial)
  refine ⟨shs1, evs, oe, cur', by rw [hcur, a1], a4, ?_, ?_⟩
  · rintro rfl
    exact a9.1
  · rintro e rfl
    obtain ⟨s', i', d1, d2, d3, d4, d5, d6, _⟩ := a9
    refine ⟨s', i', ⟨a2, a3, fun j hj => by rw [a4]; exact hp.sz j hj, d1, d3, by rw [a4]; exact d5⟩, by omega, ?_⟩
    exact rank_next (fun j => (shs j).map.nbuckets) hp.hi d2 d4 d6

theorem rank_le {nb : Nat → Nat} {n s i : Nat} (hs : s < n) (hi : i ≤ nb s) : rank nb s i ≤ rank nb n 0 := by
  have h1 := rank_mono nb (show s + 1 ≤ n by omega)
  have h2 : rank nb (s + 1) 0 = rank nb s 0 + nb s := by unfold rank; rw [Finset.sum_range_succ]; omega
  have h3 : rank nb s i = rank nb s 0 + i := by unfold rank; omega
  omega

/-- One SCAN is a piece of a walk with the cursor. -/
theorem scanWork_walk {c : Ctx} (hv : c.Valid) {n : Nat} (hn : n < 2 ^ 31) (now : Int) (want : Bytes → Bool) (fuel count : Nat) {shs : Shards}
    {cur s i : Nat} (hp : Pos c n shs cur s i) (hz : count ≠ 0 ∨ cur ≠ 0)
    (hf : rank (fun j => (shs j).map.nbuckets) n 0 + 2 ≤ fuel + rank (fun j => (shs j).map.nbuckets) s i) :
    ∃ shs' evs keys cur' es ts, scanWork n now want fuel count cur shs = .val (shs', evs, keys, cur') ∧ keys = wantedKeys want es ∧
      keys.length ≤ count ∧ (∀ t ∈ ts, t = now) ∧ (∀ j, (shs' j).map.nbuckets = (shs j).map.nbuckets) ∧
      ((cur' = 0 ∧ ∀ ts', walk n (ts ++ ts') cur shs = .val (shs', evs, es, true)) ∨
       (cur' ≠ 0 ∧ (∃ s' i', Pos c n shs' cur' s' i') ∧ count ≤ ts.length ∧ keys.length = count ∧
        ∀ ts', walk n (ts ++ ts') cur shs = (walk n ts' cur' shs').bind fun y => .val (y.1, evs ++ y.2.1, es ++ y.2.2.1, y.2.2.2))) := by
  induction fuel generalizing count shs cur s i with
  | zero =>
    have := rank_le (nb := fun j => (shs j).map.nbuckets) hp.hs hp.hi
    omega
  | succ fuel ih =>
    unfold scanWork
    by_cases hc : count = 0
    · rw [if_pos hc]
      refine ⟨_, _, _, _, [], [], rfl, rfl, by simp, by simp, fun _ => rfl, Or.inr ⟨by tauto, ⟨s, i, hp⟩, by simp [hc], by simp [hc], fun ts' => ?_⟩⟩
      simp only [List.nil_append]
      cases walk n ts' cur shs <;> rfl
    · rw [if_neg hc]
      obtain ⟨shs1, evs1, oe, cur1, h1, h2, h3, h4⟩ := next_spec hv hn now hp
      rw [h1]
      simp only [Out.bind]
      cases oe with
      | none =>
        refine ⟨_, _, _, _, [], [now], rfl, rfl, by simp, by simp, h2, Or.inl ⟨h3 rfl, fun ts' => ?_⟩⟩
        simp only [List.cons_append, List.nil_append, walk]
        rw [h1]
        simp only [Out.bind]
      | some e =>
        obtain ⟨s', i', hp1, hz1, hr⟩ := h4 e rfl
        have e1 : (fun j => (shs1 j).map.nbuckets) = fun j => (shs j).map.nbuckets := funext h2
        obtain ⟨shs2, evs2, keys, cur2, es, ts, b1, b2, b3, b4, b5, b6⟩ := ih (if want e.key then count - 1 else count) hp1 (Or.inr hz1)
          (by rw [e1]; omega)
        simp only []
        rw [b1]
        refine ⟨_, _, _, _, e :: es, now :: ts, rfl, ?_, ?_, ?_, fun j => by rw [b5, h2], ?_⟩
        · rw [wantedKeys_cons, b2]
        · simp only []
          split at b3
          · rw [if_pos ‹_›]; simp only [List.length_cons]; omega
          · rw [if_neg ‹_›]; exact b3
        · intro t ht
          rcases List.mem_cons.1 ht with rfl | ht
          · rfl
          · exact b4 t ht
        · have hw : ∀ ts', walk n (now :: ts ++ ts') cur shs = (walk n (ts ++ ts') cur1 shs1).bind fun y => .val (y.1, evs1 ++ y.2.1, e :: y.2.2.1, y.2.2.2) := by
            intro ts'
            simp only [List.cons_append, walk]
            rw [h1]
            simp only [Out.bind]
          rcases b6 with ⟨c1, c2⟩ | ⟨c1, c2, c3, c4, c5⟩
          · left
            refine ⟨c1, fun ts' => ?_⟩
            rw [hw, c2]
            rfl
          · right
            refine ⟨c1, c2, ?_, ?_, fun ts' => ?_⟩
            · simp only [List.length_cons]
              split at c3 <;> omega
            · simp only []
              split at c4
              · rw [if_pos ‹_›]; simp only [List.length_cons]; omega
              · rw [if_neg ‹_›]; exact c4
            · rw [hw, c5]
              cases walk n ts' cur2 shs2 with
              | val y => simp [Out.bind]
              | _ => rfl

theorem scanCalls_walk {c : Ctx} (hv : c.Valid) {n : Nat} (hn : n < 2 ^ 31) (pattern : Bytes) (l : List (Int × Nat)) (hl : ∀ x ∈ l, 0 < x.2)
    {shs : Shards} {cur s i : Nat} (hp : Pos c n shs cur s i) :
    ∃ shs' evs es done ts, scanCalls n pattern l cur shs = .val (shs', evs, wantedKeys (scanWants pattern) es, done) ∧
      (∀ t ∈ ts, ∃ x ∈ l, t = x.1) ∧ (done = false → l.length ≤ ts.length) ∧ walk n ts cur shs = .val (shs', evs, es, done) := by
  induction l generalizing shs cur s i with
  | nil => exact ⟨shs, [], [], false, [], rfl, by simp, by simp, rfl⟩
  | cons x l ih =>
    have hx := hl x (by simp)
    obtain ⟨shs1, evs1, keys, cur1, es1, ts1, b1, b2, b3, b4, b5, b6⟩ := scanWork_walk hv hn x.1 (scanWants pattern) (scanSteps n shs) x.2 hp
      (Or.inl (by omega)) (by unfold scanSteps; omega)
    unfold scanCalls
    rw [b1]
    simp only [Out.bind]
    rcases b6 with ⟨c1, c2⟩ | ⟨c1, ⟨s', i', c2⟩, c3, c4, c5⟩
    · rw [if_pos c1, b2]
      refine ⟨_, _, es1, _, ts1, rfl, fun t ht => ⟨x, by simp, b4 t ht⟩, by simp, ?_⟩
      have := c2 []
      rwa [List.append_nil] at this
    · rw [if_neg c1]
      obtain ⟨shs2, evs2, es2, done, ts2, d1, d2, d3, d4⟩ := ih (fun y hy => hl y (by simp [hy])) c2
      rw [d1]
      simp only []
      refine ⟨_, _, es1 ++ es2, done, ts1 ++ ts2, by rw [wantedKeys_append, b2], ?_, ?_, ?_⟩
      · intro t ht
        rcases List.mem_append.1 ht with ht | ht
        · exact ⟨x, by simp, b4 t ht⟩
        · obtain ⟨y, hy, h⟩ := d2 t ht
          exact ⟨y, by simp [hy], h⟩
      · intro hd
        have := d3 hd
        simp only [List.length_cons, List.length_append]
        omega
      · rw [c5, d4]
        rfl

/-- **C71** (`_partial`: nothing but expiry happens between the calls, no escaped question mark in the pattern and at most 127 groups of stars; see
`cursor_walk_skips_entry`).  SCAN commands with one pattern, at any times and with any counts, each with the cursor returned by the one before, from 0 on:
they return only keys that are live and match; after a bounded number of commands the cursor is 0; then every key that is live at all these times and
matches has been returned; and if no entry expired on the way, none was returned twice. -/
theorem scan_complete_partial {c : Ctx} (hv : c.Valid) {n : Nat} (hn : 0 < n) (hn2 : n < 2 ^ 31) {shs : Shards} (h : Reach c n shs) (hnw : NoWrap n shs)
    (hsz : ∀ j, j < n → (shs j).map.nbuckets < 2 ^ 31) {pattern : Bytes} {ts : List Glob.Tok} (ht : Glob.toks pattern = some ts)
    (hq : Glob.Tok.lit 63 ∉ ts) (hg : Glob.starGroups ts ≤ 127) :
    ∃ N, ∀ l : List (Int × Nat), (∀ x ∈ l, 0 < x.2) → ∃ shs' evs keys done, scanCalls n pattern l 0 shs = .val (shs', evs, keys, done) ∧
      (∀ k ∈ keys, Glob.Matches ts k ∧ ∃ e, view c n shs k = some e ∧ ∃ x ∈ l, e.alive x.1 = true) ∧
      (N < l.length → done = true) ∧
      (done = true → ∀ k e, view c n shs k = some e → (∀ x ∈ l, e.alive x.1 = true) → Glob.Matches ts k → k ∈ keys) ∧
      (evs = [] → keys.Nodup) := by
  obtain ⟨N, hN⟩ := cursor_walk_complete_partial hv hn hn2 h hnw hsz
  have hwant : ∀ k, scanWants pattern k = true ↔ Glob.Matches ts k := by
    intro k
    obtain ⟨b, h1, _, h2⟩ := Glob.glob_exact_partial pattern k
    unfold scanWants
    rw [h1, decide_eq_true_iff, Option.some.injEq]
    exact h2 ts ht hq hg
  have hkey : ∀ {k e}, view c n shs k = some e → e.key = k := fun {k e} hk =>
    shView_key (h.allInv hv hn _ (shardIdx_lt c hn k)) (hnw _ (shardIdx_lt c hn k)) hk
  refine ⟨N, fun l hl => ?_⟩
  obtain ⟨shs', evs, es, done, tl, h1, h2, h3, h4⟩ := scanCalls_walk hv hn2 pattern l hl
    (show Pos c n shs 0 0 0 from ⟨h.allInv hv hn, hnw, hsz, by simp, hn, Nat.zero_le _⟩)
  obtain ⟨shs'', evs', es', done', g1, g2, g3, g4, g5⟩ := hN tl
  rw [h4] at g1
  simp only [Out.val.injEq, Prod.mk.injEq] at g1
  obtain ⟨rfl, rfl, rfl, rfl⟩ := g1
  refine ⟨shs', evs, _, done, h1, ?_, ?_, ?_, ?_⟩
  · intro k hk
    obtain ⟨e, he, rfl⟩ := List.mem_map.1 hk
    obtain ⟨he1, he2⟩ := List.mem_filter.1 he
    obtain ⟨a1, t, a2, a3⟩ := g2 e he1
    obtain ⟨x, hx, rfl⟩ := h2 t a2
    exact ⟨(hwant _).1 he2, e, a1, x, hx, a3⟩
  · intro hlen
    cases hd : done with
    | true => rfl
    | false =>
      have := h3 hd
      rw [g3 (by omega)] at hd
      cases hd
  · intro hd k e hk hal hm
    refine List.mem_map.2 ⟨e, List.mem_filter.2 ⟨g4 hd k e hk ?_, ?_⟩, ?_⟩
    · intro t ht
      obtain ⟨x, hx, rfl⟩ := h2 t ht
      exact hal x hx
    · rw [hkey hk]; exact (hwant _).2 hm
    · exact hkey hk
  · intro h0
    have hnd := (g5 h0).2
    unfold wantedKeys
    refine List.Nodup.map_on ?_ (hnd.filter _)
    intro e he e' he' hk
    have a1 := (g2 e (List.mem_filter.1 he).1).1
    have a2 := (g2 e' (List.mem_filter.1 he').1).1
    rw [hk, a2] at a1
    exact (Option.some.inj a1).symm

/-- Hypotheses of `scan_complete_partial`: two shards and four keys, one of which expires; pattern `?`, two keys per call. -/
example : ∃ shs rs, runCalls Example.ctx 2 Example.quad (newCache Example.ctx) = .val (shs, rs) ∧ Reach Example.ctx 2 shs ∧ NoWrap 2 shs ∧
    (∀ j, j < 2 → (shs j).map.nbuckets < 2 ^ 31) ∧ Glob.toks [63] = some [.any] ∧ Glob.starGroups [.any] ≤ 127 ∧
    ∃ shs' evs, scanCalls 2 [63] [(101, 2), (106, 2)] 0 shs = .val (shs', evs, [[3], [4], [1]], true) := by
  obtain ⟨⟨x, y⟩, hr, h⟩ := Out.of_test (o := (runCalls Example.ctx 2 Example.quad (newCache Example.ctx)).bind fun x =>
      (scanCalls 2 [63] [(101, 2), (106, 2)] 0 x.1).bind fun y => .val (x, y))
    (p := fun (z : (Shards × _) × Shards × List Ev × List Bytes × Bool) => noWrapB 2 z.1.1 = true ∧ ((List.range 2).all fun j => decide ((z.1.1 j).map.nbuckets < 2 ^ 31)) = true ∧ z.2.2.2.2 = true ∧ z.2.2.2.1 = [[3], [4], [1]])
    (by decide +kernel)
  obtain ⟨x', hx, hr⟩ := out_bind_val hr
  obtain ⟨y', hy, hr⟩ := out_bind_val hr
  simp only [Out.val.injEq, Prod.mk.injEq] at hr
  obtain ⟨rfl, rfl⟩ := hr
  obtain ⟨h1, h2, h3, h4⟩ := h
  obtain ⟨y1, y2, y3, y4⟩ := y'
  simp only [] at h3 h4
  subst h3 h4
  refine ⟨x'.1, x'.2, hx, runCalls_reach .new ?_ hx, noWrapB_iff.1 h1, ?_, rfl, by decide, y1, y2, hy⟩
  · intro z hz
    rcases List.mem_append.1 hz with hz | hz
    · exact Example.trio_ok z hz
    · simp only [List.mem_singleton] at hz
      subst hz
      exact ⟨⟨105, by decide⟩, fun _ => rfl⟩
  · intro j hj
    have := List.all_eq_true.1 h2 j (List.mem_range.2 hj)
    simpa using this

/-! ### Cursors from outside -/

/-- What SCAN finds in a cache at a time. -/
def scanOf (n : Nat) (now : Int) (shs : Shards) (cursor : Nat) (pattern : Bytes) (count : Nat) : Option (List Bytes × Nat) :=
  match scanWork n now (scanWants pattern) (scanSteps n shs) count cursor shs with
  | .val r => some (r.2.2.1, r.2.2.2)
  | _ => none

/-- For all cursors whose upper half is not the number of shards, SCAN ends and stays inside of the cache. -/
theorem scan_ends_partial {c : Ctx} (hv : c.Valid) {n : Nat} (hn : 0 < n) (hn2 : n < 2 ^ 31) {shs : Shards} (h : Reach c n shs) (hnw : NoWrap n shs)
    (hsz : ∀ j, j < n → (shs j).map.nbuckets < 2 ^ 31) (now : Int) (pattern : Bytes) (count : Nat) {cursor : Nat} (hc : cursor / 2 ^ 32 ≠ n) :
    ∃ keys cur', scanOf n now shs cursor pattern count = some (keys, cur') ∧ keys.length ≤ count := by
  have hall := h.allInv hv hn
  unfold scanOf scanSteps
  by_cases h0 : count = 0
  · subst h0
    unfold scanWork
    exact ⟨_, _, rfl, by simp⟩
  · rw [scanWork, if_neg h0]
    unfold cursorNext
    simp only []
    by_cases c1 : 2 ^ 31 ≤ cursor / 2 ^ 32 ∨ n < cursor / 2 ^ 32
    · rw [if_pos c1]
      exact ⟨_, _, rfl, by simp⟩
    · rw [if_neg c1]
      by_cases c2 : 2 ^ 31 ≤ cursor % 2 ^ 32
      · rw [if_pos c2]
        exact ⟨_, _, rfl, by simp⟩
      · rw [if_neg c2]
        obtain ⟨shs1, evs, oe, cur', a1, a2, a3, a4, a5, a6, a7, a8, a9⟩ := loop_spec hv now (n + 1) (cursor / 2 ^ 32) (cursor % 2 ^ 32) shs hall hnw
          (by omega) (by omega) (K := fun _ => True) (fun _ _ _ _ _ _ => trivial)
        rw [a1]
        simp only [Out.bind]
        cases oe with
        | none => exact ⟨_, _, rfl, by simp⟩
        | some e =>
          obtain ⟨s', i', d1, d2, d3, d4, d5, d6, _⟩ := a9
          have hp : Pos c n shs1 cur' s' i' := ⟨a2, a3, fun j hj => by rw [a4]; exact hsz j hj, d1, d3, by rw [a4]; exact d5⟩
          have e1 : (fun j => (shs1 j).map.nbuckets) = fun j => (shs j).map.nbuckets := funext a4
          obtain ⟨shs2, evs2, keys, cur2, es, ts, b1, b2, b3, _⟩ := scanWork_walk hv hn2 now (scanWants pattern)
            (rank (fun j => (shs j).map.nbuckets) n 0 + 1) (if scanWants pattern e.key then count - 1 else count) hp (Or.inr (by omega))
            (by rw [e1]; unfold rank; omega)
          simp only []
          rw [b1]
          refine ⟨_, _, rfl, ?_⟩
          simp only []
          split at b3
          · rw [if_pos ‹_›]; simp only [List.length_cons]; omega
          · rw [if_neg ‹_›]; exact b3

/-- A cursor whose upper half is the number of shards takes SCAN out of the cache, in every state. -/
theorem scan_crashes {n : Nat} (hn : n < 2 ^ 31) (now : Int) (shs : Shards) (pattern : Bytes) {count : Nat} (hc : 0 < count) :
    scanOf n now shs (n * 2 ^ 32) pattern count = none := by
  unfold scanOf scanSteps
  rw [scanWork, if_neg (by omega), (cursor_out_of_bounds hn now shs).2]
  rfl

/-- **C69, negation.**  `SCAN 17179869184` crashes a cache with four shards. -/
theorem scan_request_crashes (y : Sys) (shs : Shards) (hy : y.scan = scanOf 4 5 shs) (env : Spec.Env) (I : Spec.State → Spec.State → Prop) (s : Spec.State) :
    Runs env I false 5 (evcommand (at_ .resp 5) [] (admin y) [[83, 67, 65, 78], [49, 55, 49, 55, 57, 56, 54, 57, 49, 56, 52]] ⟨true⟩) s ([.undefined], ⟨true⟩) s := by
  rw [evcommand_known (low := [115, 99, 97, 110]) (fn := .cmdSCAN) ((spells_iff _ _ (by decide)).2 (by decide)) (by decide)]
  have hpar : parseU64 [49, 55, 49, 55, 57, 56, 54, 57, 49, 56, 52] = some (4 * 2 ^ 32) := by decide +kernel
  have h1 : y.scan (4 * 2 ^ 32) [42] 100 = none := by rw [hy]; exact scan_crashes (by decide) _ _ _ (by decide)
  have h2 : cmdSCAN y (at_ .resp 5) [[83, 67, 65, 78], [49, 55, 49, 55, 57, 56, 54, 57, 49, 56, 52]] = .ret [.undefined] := by
    unfold cmdSCAN
    simp only [hpar, Verif.Cmd.scanLoop, h1]
  have h3 : call (at_ .resp 5) [] (admin y) .cmdSCAN [[83, 67, 65, 78], [49, 55, 49, 55, 57, 56, 54, 57, 49, 56, 52]] ⟨true⟩ =
      (cmdSCAN y (at_ .resp 5) [[83, 67, 65, 78], [49, 55, 49, 55, 57, 56, 54, 57, 49, 56, 52]]).map (·, ⟨true⟩) := rfl
  rw [h3, h2]
  exact .ret _ _

/-- **C69** (`_partial`: as `no_crash_partial`), with the cache: the requests that crash are DEBUG POPULATE and SCAN with the number of shards in the
upper half of the cursor. -/
theorem no_crash_cache_partial {c : Ctx} (hv : c.Valid) {n : Nat} (hn : 0 < n) (hn2 : n < 2 ^ 31) {shs : Shards} (hr : Reach c n shs) (hnw : NoWrap n shs)
    (hsz : ∀ j, j < n → (shs j).map.nbuckets < 2 ^ 31) {env : Spec.Env} {I : Spec.State → Spec.State → Prop} {oom : Bool} {y : Sys} {e : Env}
    (hc : Clocks e) (hy : y.scan = scanOf n e.now shs) {pw : Bytes} {st st' : ConnSt} {args : List Bytes} (hne : args ≠ []) {s s' : Spec.State}
    {out : List W} (h : Runs env I oom e.now (evcommand e pw (admin y) args st) s (out, st') s') (hbad : W.undefined ∈ out ∨ W.failed ∈ out) :
    IsPopulate args ∨ ∃ name cursor as x, args = name :: cursor :: as ∧ parseU64 cursor = some x ∧ x / 2 ^ 32 = n := by
  rcases no_crash_partial hc hne h hbad with h | ⟨name, cursor, as, x, p, k, h1, h2, h3⟩
  · exact Or.inl h
  · refine Or.inr ⟨name, cursor, as, x, h1, h2, ?_⟩
    by_contra hx
    obtain ⟨keys, cur', h4, _⟩ := scan_ends_partial hv hn hn2 hr hnw hsz e.now p k hx
    rw [hy, h4] at h3
    cases h3

/-- Hypotheses of `no_crash_cache_partial`: a new cache, and the request above. -/
example : Example.ctx.Valid ∧ Reach Example.ctx 4 (newCache Example.ctx) ∧ NoWrap 4 (newCache Example.ctx) ∧
    (∀ j, j < 4 → ((newCache Example.ctx) j).map.nbuckets < 2 ^ 31) ∧ Clocks (at_ .resp 5) ∧
    (∃ y : Sys, y.scan = scanOf 4 5 (newCache Example.ctx)) := by
  refine ⟨by unfold Ctx.Valid; decide, .new, ?_, ?_, by simp only [Clocks, at_, IsI64]; decide, { sys1 with scan := scanOf 4 5 (newCache Example.ctx) }, rfl⟩
  · exact noWrapB_iff.1 (by decide +kernel)
  · decide +kernel

end Verif.Cmd
