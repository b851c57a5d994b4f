import Mathlib.Tactic.Common
import Verif.Mix.LiveProps
import Verif.Mix.LiveCas
import Verif.Mix.Restart

/-!
C123, C124: SAVE, KEYS, sweeps and flushes while clients of all protocols work; a restart with a file saved while clients worked.
-/

namespace Verif.Mix

open Verif.Num Verif.Resp Verif.Cmd Verif.Cache Verif.Shard Verif.Map Verif.Save Function
open Verif.Many (Chore Worker DictShows)

theorem seen_shown {grp : Bytes → Nat} {now0 : Int} {e : Chore × Store} {z : Chore × List (Bytes × Spec.Item)} (h : Seen grp now0 e z) (hle : now0 ≤ z.1.now)
    (hk : z.1.kind = .show) : ShardShown grp z.1 e.2 z.2 := by
  obtain ⟨_, st, h2, h3⟩ := h
  obtain ⟨h4, h5⟩ := h3 hk
  have hsee : ∀ k, e.2.see z.1.now k = (st.dict.get z.1.now k).map McWire.held := fun k => ((h2.later hle).1.1 k).symm
  intro k x
  rw [hsee, Option.map_eq_some_iff]
  constructor
  · rintro ⟨it, g1, g2, g3, g4, g5⟩
    obtain ⟨g6, g7⟩ := h4 _ g1
    exact ⟨g7, it, g6, by unfold McWire.held; rw [g2, g3, g4, g5]⟩
  · rintro ⟨g1, it, g2, rfl⟩
    exact ⟨it, h5 k it g2 g1, rfl, rfl, rfl, rfl⟩

section

variable {c c' : Ctx} {n n' : Nat} {pw pw' : Bytes} {y y' : Sys} {kind kind' : Nat → Kind} {clock clock' : Nat → Nat → Env} {addr addr' : Nat → Nat}
  {asks asks' : Nat → List Ask} {chunks chunks' : Nat → List Bytes} {ws ws' : Nat → List Bytes}

/-- **C123.**  Any number of RESP, memcache, HTTP and Postgres clients, as in C110, and any number of threads that go over shards, showing their entries (SAVE, KEYS), sweeping or flushing
them, in any order (`work`), all of them at once; any interleaving at the locks, and clocks that need not agree.  Take the parts of commands and the chores in the order in which they
are finished (`h`): the replies of all clients are exactly those of a server that does one of them at a time in this order (`LiveStory`); a sweep does nothing that a client could
tell, a flush empties just its shard, and what a thread has shown of a shard is exactly what this server had in it at that moment, with values, flags, deadlines and tokens (`ShardShown`).  Neither
sweeps nor flushes make a token valid again: no update is lost (C107).  (Unless a distance counter of the hash table has wrapped, C01; memory is not low.) -/
theorem live_served (hv : c.Valid) (hu : c.usecas = true) (hn : 0 < n) {shs : Shards} (hA : AllInv c n shs) {now0 : Int} {s : Spec.State} (hR : R c n now0 shs s)
    (hs : ∀ k it, s.dict k = some it → it.value.length ≤ Wire.longest ∧ it.expires < 2 ^ 63) (hver : ∀ b ∈ y.version, 32 ≤ b)
    (hclock : ∀ t i, Fine (kind t) (clock t i)) (hle : ∀ t i, now0 ≤ (clock t i).now) (hcl : Clients pw kind asks chunks ws)
    {work : Nat → Option (List Chore)} (hwork : ∀ t l, work t = some l → ∀ x ∈ l, x.shard < n ∧ now0 ≤ x.now)
    (hp : (liveServer c n kind pw y clock addr).Ok) {h : List Nat} {s' : Conc.State ((Nat × Loc) ⊕ Worker) Sh}
    (he : Conc.Exec (liveServer c n kind pw y clock addr) (liveStart kind pw y clock chunks work) shs s' h) :
    (∀ t l, s'.loc t = .inl l → (∃ j, l.2.job = .val j) ∨ l.2.job = .abort true) ∧ (∀ t w, s'.loc t = .inr w → ∃ g, w.got = .val g) ∧
    (NoWrap n s'.mem → ∃ ds rs ps m, ds.map Did.who = h ∧ (∀ d ∈ ds, d.isPart = true ↔ work d.who = none) ∧
      LiveStory y.version clock asks (shardIdx c n) (McWire.ofState (shardIdx c n) s) ds rs ps m ∧
      (Bounded (McWire.ofState (shardIdx c n) s) → NoLostUpdateLive ds ∧ OneWinnerLive ds) ∧
      (∀ t l, s'.loc t = .inl l → work t = none ∧ Reads l.2.sent (rs t) ∧ (l.2.job = .val none → ps t = [] ∧ ∃ tail, Received (ws t) (chunks t).flatten (rs t).length tail)) ∧
      ∀ t w, s'.loc t = .inr w → work t = some (w.shown.map Prod.fst ++ w.todo) ∧
        List.Forall₂ (fun e z => e.1 = z.1 ∧ (z.1.kind = .show → ShardShown (shardIdx c n) z.1 e.2 z.2)) (ds.filterMap (Did.choreOf t)) w.shown) := by
  obtain ⟨cs, hcs⟩ := hcl.parsed hver
  obtain ⟨h1, h2, h3⟩ := live_from hv hu hn hA hR (agr_ofState hs now0) hclock hle hcs hwork hp he
  refine ⟨h1, h2, fun hnw => ?_⟩
  obtain ⟨ds, rs, ps, m, g1, g2, g3, g4, g5⟩ := h3 hnw
  refine ⟨ds, rs, ps, m, g1, g2, g3, fun hb => ⟨no_lost_update_live g3 hb, one_winner_live g3 hb⟩, g4, fun t w hw => ?_⟩
  obtain ⟨k1, k2⟩ := g5 t w hw
  refine ⟨k1, ?_⟩
  have hle' : ∀ z ∈ w.shown, now0 ≤ z.1.now := fun z hz => (hwork t _ k1 z.1 (List.mem_append_left _ (List.mem_map.2 ⟨z, hz, rfl⟩))).2
  clear hw k1 g5
  generalize ds.filterMap (Did.choreOf t) = es at k2 ⊢
  generalize w.shown = zs at k2 hle' ⊢
  induction k2 with
  | nil => exact .nil
  | @cons e z es zs h1 _ ih => exact .cons ⟨h1.1, fun hk => seen_shown h1 (hle' z (by simp)) hk⟩ (ih fun z hz => hle' z (by simp [hz]))

/-- **C124** (`_partial`: the file is not the store at one moment, only for each shard the store at one moment, `Many.Example.save_not_snapshot`; no item's deadline is the very wall-clock time at
which its block is loaded, C28; and the tokens of the items are new ones, C115).

While any number of RESP, memcache, HTTP and Postgres clients are served, with any number of sweeps and flushes (C123), threads save all shards; then the process ends, at any moment, also
in the middle of commands (this is what SIGTERM does).  The file is loaded into a new server as in C114, and clients of any of the protocols are served by it.

The file loads without an error; the first clients got the replies of the server a user has in mind, and for each shard `i` there is one moment of this server, that of
the save of the shard, when its store was `M i`, such that the later clients get the replies of this server starting with the keys of each shard as they were at that
moment, with the same values, flags and deadlines on the wall clock. -/
theorem live_restart_partial (hv : c.Valid) (hu : c.usecas = true) (hn : 0 < n) {shs : Shards} (hA : AllInv c n shs) {now0 : Int} {s : Spec.State} (hR : R c n now0 shs s)
    (hs : ∀ k it, s.dict k = some it → it.value.length ≤ Wire.longest ∧ it.expires < 2 ^ 63) (hver : ∀ b ∈ y.version, 32 ≤ b)
    (hclock : ∀ t i, Fine (kind t) (clock t i)) (hle : ∀ t i, now0 ≤ (clock t i).now) (hcl : Clients pw kind asks chunks ws)
    {work : Nat → Option (List Chore)} (hwork : ∀ t l, work t = some l → ∀ x ∈ l, x.shard < n ∧ now0 ≤ x.now)
    (hp : (liveServer c n kind pw y clock addr).Ok) {h : List Nat} {s' : Conc.State ((Nat × Loc) ⊕ Worker) Sh}
    (he : Conc.Exec (liveServer c n kind pw y clock addr) (liveStart kind pw y clock chunks work) shs s' h) (hnw : NoWrap n s'.mem)
    -- the save
    {z : Lz4} (hz : z.Good) {word : List Nat} {clk : Nat → Int} {δ : Int} {shown : Nat → List (Bytes × Spec.Item)} {file : Bytes} (hword : word.Perm (List.range n))
    (hclk : ∀ i < n, 0 < clk i ∧ IsI64 (clk i) ∧ 0 ≤ clk i + δ ∧ clk i + δ < 2 ^ 63)
    (hshown : ∀ i < n, ∃ t w, s'.loc t = .inr w ∧ (⟨.show, i, clk i⟩, shown i) ∈ w.shown) (hfile : fileOf z clk δ shown word = some file)
    (hfit : ∀ i < n, ∀ x ∈ shown i, Fits x ∧ x.2.expires + δ < 2 ^ 63)
    (hsz : ∀ i < n, ∀ d, blockData (clk i) (clk i + δ) (shown i) = some d → d.length ≤ lz4Max)
    -- the load
    (hv' : c'.Valid) (hu' : c'.usecas = true) (hn' : 0 < n') {lt : Nat → Int} {δ' : Int} (hlt : ∀ j, 0 < lt j ∧ IsI64 (lt j) ∧ 0 ≤ lt j + δ' ∧ lt j + δ' < 2 ^ 63)
    (hfit' : ∀ i < n, ∀ x ∈ shown i, x.2.expires + δ - δ' < 2 ^ 63)
    (hne : ∀ i < n, ∀ x ∈ shown i, x.2.expires ≠ 0 → ∀ j, x.2.expires + δ ≠ lt j + δ')
    {l : List (Spec.StoreArgs × Int)} (hl : l.Perm (loadStores z lt δ' (readFile file).1)) (hlm : l.Pairwise fun a b => a.2 ≤ b.2)
    {shs2 : Shards} {rs2 : List Spec.Reply} (hload : Cache.run c' n' (l.map storeCall) (newCache c') = .val (shs2, rs2)) (hnw2 : NoWrap n' shs2)
    -- the later clients
    {now1 : Int} (hltn : ∀ j, lt j ≤ now1) (hclkn : ∀ i < n, clk i + δ ≤ now1 + δ') (hver' : ∀ b ∈ y'.version, 32 ≤ b) (hclock' : ∀ t i, Fine (kind' t) (clock' t i))
    (hle' : ∀ t i, now1 ≤ (clock' t i).now) (hcl' : Clients pw' kind' asks' chunks' ws') (hp' : (server c' n' kind' pw' y' clock' addr').Ok) {h' : List Nat} {s2 : Conc.State (Nat × Loc) Sh}
    (he' : Conc.Exec (server c' n' kind' pw' y' clock' addr') (fun t => (t, opened (kind' t) pw' y' (clock' t) (chunks' t))) shs2 s2 h') (hnw3 : NoWrap n' s2.mem) :
    ((readFile file).2 = true ∧ ∀ j, ∀ hj : j < (readFile file).1.length, (loadBlock z (lt j + δ') (readFile file).1[j].1 (readFile file).1[j].2).2 = true) ∧
    ∃ ds rs ps m, ds.map Did.who = h ∧ (∀ d ∈ ds, d.isPart = true ↔ work d.who = none) ∧
      LiveStory y.version clock asks (shardIdx c n) (McWire.ofState (shardIdx c n) s) ds rs ps m ∧
      (∀ t l, s'.loc t = .inl l → work t = none ∧ Reads l.2.sent (rs t) ∧ (l.2.job = .val none → ps t = [] ∧ ∃ tail, Received (ws t) (chunks t).flatten (rs t).length tail)) ∧
      ∃ M : Nat → Store, (∀ i < n, ∃ t, Did.chore t ⟨.show, i, clk i⟩ (M i) ∈ ds) ∧
      (∀ t, (∃ j, (s2.loc t).2.job = .val j) ∨ (s2.loc t).2.job = .abort true) ∧
      ∃ m1 evs' rs' ps' m', Restarted (δ - δ') now1 ⟨fun k => (M (shardIdx c n k)).has k, fun k => (M (shardIdx c n k)).used k⟩ m1 ∧
        evs'.map (·.who) = h' ∧ Story y'.version clock' asks' m1 evs' rs' ps' m' ∧ NoLostUpdate evs' ∧ OneWinner evs' ∧
        ∀ t, Reads (s2.loc t).2.sent (rs' t) ∧ ((s2.loc t).2.job = .val none → ps' t = [] ∧ ∃ tail, Received (ws' t) (chunks' t).flatten (rs' t).length tail) := by
  obtain ⟨cs, hcs⟩ := hcl.parsed hver
  obtain ⟨cs', hcs'⟩ := hcl'.parsed hver'
  obtain ⟨_, _, k2⟩ := live_from hv hu hn hA hR (agr_ofState hs now0) hclock hle hcs hwork hp he
  obtain ⟨ds, rs, ps, m, g1, g2, g3, g4, g5⟩ := k2 hnw
  -- the moments of the saves
  have hmom : ∀ i, ∃ (M : Store) (d : Spec.State), i < n → (∃ t, Did.chore t ⟨.show, i, clk i⟩ M ∈ ds) ∧ now0 ≤ clk i ∧ Agr (shardIdx c n) now0 d M ∧
      DictShows (shardIdx c n) ⟨.show, i, clk i⟩ d.dict (shown i) := by
    intro i
    by_cases hi : i < n
    swap
    · exact ⟨⟨fun _ => none, fun _ => 0⟩, ⟨fun _ => none, fun _ => 0⟩, fun hc => absurd hc hi⟩
    obtain ⟨t, w, e1, e2⟩ := hshown i hi
    obtain ⟨e3, e4⟩ := g5 t w e1
    have e5 := (hwork t _ e3 ⟨.show, i, clk i⟩ (List.mem_append_left _ (List.mem_map.2 ⟨_, e2, rfl⟩))).2
    have : ∀ {es : List (Chore × Store)} {zs : List (Chore × List (Bytes × Spec.Item))}, List.Forall₂ (Seen (shardIdx c n) now0) es zs → ∀ z ∈ zs, ∃ e ∈ es, Seen (shardIdx c n) now0 e z := by
      intro es zs hf
      induction hf with
      | nil => intro z hz; simp at hz
      | @cons e z es zs h1 _ ih =>
        intro z' hz
        rcases List.mem_cons.1 hz with rfl | hz
        · exact ⟨e, by simp, h1⟩
        · obtain ⟨e', he', h'⟩ := ih z' hz
          exact ⟨e', by simp [he'], h'⟩
    obtain ⟨⟨x, M⟩, f1, f2, d, f3, f4⟩ := this e4 _ e2
    simp only [] at f2 f3 f4
    subst f2
    obtain ⟨dd, q1, q2⟩ := List.mem_filterMap.1 f1
    refine ⟨M, d, fun _ => ⟨⟨t, ?_⟩, e5, f3, f4 trivial⟩⟩
    cases dd with
    | part ev => cases q2
    | chore u x' M' =>
      unfold Did.choreOf at q2
      simp only [] at q2
      split at q2
      · rename_i hut
        cases q2
        rw [← hut]
        exact q1
      · cases q2
  choose M D hMD using hmom
  have hgl := shardIdx_lt c hn
  set st : Spec.State := ⟨fun k => (D (shardIdx c n k)).dict k, fun i => (D i).tok i⟩ with hst0
  have hdget : ∀ t k, st.dict.get t k = (D (shardIdx c n k)).dict.get t k := fun _ _ => rfl
  have hag : Agr (shardIdx c n) now0 st ⟨fun k => (M (shardIdx c n k)).has k, fun k => (M (shardIdx c n k)).used k⟩ := by
    refine ⟨⟨fun k => ?_, fun k => ?_⟩, fun k x hx => ?_⟩
    · exact (hMD _ (hgl k)).2.2.1.1.1 k
    · exact (hMD _ (hgl k)).2.2.1.1.2 k
    · exact (hMD _ (hgl k)).2.2.1.2 k x hx
  have hsaves : ∀ i < n, (∀ x ∈ shown i, st.dict.get (clk i) x.1 = some x.2 ∧ shardIdx c n x.1 = i) ∧ ∀ k it, st.dict.get (clk i) k = some it → shardIdx c n k = i → (k, it) ∈ shown i := by
    intro i hi
    obtain ⟨_, _, _, q1, q2⟩ := hMD i hi
    refine ⟨fun x hx => ?_, fun k it hk he => ?_⟩
    · obtain ⟨p1, p2⟩ := q1 x hx
      simp only [] at p1 p2
      refine ⟨?_, p2⟩
      rw [hdget, p2]
      exact p1
    · rw [hdget, he] at hk
      exact q2 k it hk he
  have hlec : ∀ i < n, now0 ≤ clk i := fun i hi => (hMD i hi).2.1
  obtain ⟨f1, f2⟩ := loaded_dict hz hgl hsaves hclk hword hfile hfit hsz
  obtain ⟨f3, f4⟩ := f2 lt δ' hlt hfit' hne
  obtain ⟨f5, f6⟩ := f4 l hl
  refine ⟨⟨f1, f3⟩, ds, rs, ps, m, g1, g2, g3, g4, M, fun i hi => (hMD i hi).1, ?_⟩
  -- the new cache
  have hlok : ∀ x ∈ l.map storeCall, x.ok := by
    intro x hx
    obtain ⟨w, hw, rfl⟩ := List.mem_map.1 hx
    exact (f5 w hw).1
  rcases run_refines hv' hn' _ (newCache c') (allInv_new hv' n') hlok (by rw [List.pairwise_map]; exact hlm) with ⟨shs', rs', h1, h2, hA2, hsp⟩ | hab
  swap
  · rw [hab] at hload; cases hload
  rw [hload] at h1
  simp only [Out.val.injEq, Prod.mk.injEq] at h1
  obtain ⟨rfl, rfl⟩ := h1
  obtain ⟨_, hsp⟩ := hsp hnw2
  obtain ⟨st2, now', hR2, _, _, hup, hst⟩ := hsp 0 _ (fun x hx => by have := (hlok x hx).1; omega) (R_new c' n' 0)
  have hn1 : 0 < now1 := by
    have := (hlt 0).1
    have := hltn 0
    omega
  have hR2 : R c' n' now1 shs2 st2 := by
    refine hR2.later (hup now1 (by omega) ?_)
    intro x hx
    obtain ⟨w, hw, rfl⟩ := List.mem_map.1 hx
    obtain ⟨j, hj⟩ := (f5 w hw).2
    simp only [storeCall]
    rw [hj]
    exact hltn j
  have hlen : rs2.length = l.length := by simpa using h2
  have hcount := counted_loads l rs2 _ _ (by intro k it hk; cases hk) hlen hst
  have hle1 : now0 + δ ≤ now1 + δ' := by
    have := hclkn 0 hn
    have := hlec 0 hn
    omega
  have hf6 := fun k => f6 hlen hst k now1 hltn hclkn
  have hin : ∀ k it, st.dict.get now0 k = some it → now1 + δ' < it.expires + δ → (k, it) ∈ shown (shardIdx c n k) := by
    intro k it hk hlive
    have hi := shardIdx_lt c hn k
    refine (hsaves _ hi).2 k it ?_ rfl
    have := hclkn _ hi
    obtain ⟨q1, _⟩ := Option.filter_eq_some_iff.1 hk
    unfold Spec.Dict.get
    rw [q1, Option.filter_eq_some_iff]
    refine ⟨rfl, ?_⟩
    unfold Spec.Item.visible
    simp
    omega
  have hs2 : ∀ k it, (live now1 st2).dict k = some it → it.value.length ≤ Wire.longest ∧ it.expires < 2 ^ 63 := by
    intro k it hk
    have hk' : st2.dict.get now1 k = some it := hk
    have := hf6 k
    rw [hk', Option.map_some] at this
    obtain ⟨it0, w1, w2⟩ := Option.map_eq_some_iff.1 this.symm
    simp only [Prod.mk.injEq] at w2
    obtain ⟨e1, e2, _⟩ := w2
    obtain ⟨w3, w4⟩ := Option.filter_eq_some_iff.1 w1
    simp only [decide_eq_true_eq] at w4
    have hget : st.dict.get now0 k = some it0 := by
      unfold Spec.Dict.get
      rw [w3, Option.filter_eq_some_iff]
      refine ⟨rfl, ?_⟩
      unfold Spec.Item.visible
      simp
      omega
    have hsee := hag.1.1 k
    rw [hget] at hsee
    refine ⟨e1 ▸ (hag.2 k _ hsee.symm).1, ?_⟩
    rw [← e2]
    by_cases h0 : it0.expires = 0
    · rw [if_pos h0]; norm_num
    · rw [if_neg h0]
      exact hfit' _ (shardIdx_lt c hn k) _ (hin k it0 hget (by omega))
  obtain ⟨k3, _, k4⟩ := clients_from hv' hu' hn' hA2 (live_R hR2) (agr_ofState hs2 now1) hclock' hle' hcs' hp' he'
  obtain ⟨evs', rs', ps', m', q0, q1, q2, _⟩ := k4 hnw3
  have hb : Bounded (McWire.ofState (shardIdx c' n') (live now1 st2)) := by
    intro k x hx
    obtain ⟨it, h5, rfl⟩ := Option.map_eq_some_iff.1 hx
    exact hcount k it (Option.filter_eq_some_iff.1 h5).1
  refine ⟨k3, _, evs', rs', ps', m', restarted_of hag hle1 hn1 (d' := (live now1 st2).dict) (fun k => ?_), q0, q1, no_lost_update q1 hb, one_winner q1 hb, q2⟩
  unfold live
  rw [get_get _ _ _ (Int.le_refl _)]
  exact hf6 k

end

end Verif.Mix
