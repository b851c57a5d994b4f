import Mathlib.Tactic.Common
import Verif.Many.LiveProps
import Verif.Many.Restart

/-!
C104, C105: SAVE, KEYS, sweeps and flushes while clients work; a restart with a file saved while clients worked.
-/

namespace Verif.Many

open Verif.Num Verif.Resp Verif.Cmd Verif.Cache Verif.Shard Verif.Map Verif.Wire Verif.Save Function

theorem seen_shown {grp : Bytes → Nat} {now0 : Int} {e : Nat × Chore × Store} {z : Chore × List (Bytes × Spec.Item)} (h : Seen grp now0 e z) (hle : now0 ≤ z.1.now)
    (hk : z.1.kind = .show) : ShardShown grp z.1 e.2.2 z.2 := by
  obtain ⟨_, d, h2, h3⟩ := h
  obtain ⟨h4, h5⟩ := h3 hk
  have hsee : ∀ k, e.2.2.see z.1.now k = (d.get z.1.now k).map kept := fun k => by rw [← see_get]; exact ((h2.later hle).1 k).symm
  intro k x
  rw [hsee, Option.map_eq_some_iff]
  constructor
  · rintro ⟨it, g1, g2, g3⟩
    obtain ⟨g4, g5⟩ := h4 _ g1
    exact ⟨g5, it, g4, by unfold kept; rw [g2, g3]⟩
  · rintro ⟨g1, it, g2, rfl⟩
    exact ⟨it, h5 k it g2 g1, rfl, rfl⟩

section

variable {c c' : Ctx} {n n' : Nat} {pw pw' : Bytes} {y y' : Sys} {clock clock' : Nat → Nat → Env} {addr addr' : Nat → Nat}
  {asks asks' : Nat → List Ask} {chunks chunks' : Nat → List Bytes} {cs cs' : Nat → List (List Bytes)} {ws ws' : Nat → List Bytes}

/-- **C104.**  Any number of RESP clients, as in C101, and any number of threads that go over shards, showing their entries (SAVE, KEYS), sweeping or flushing them, in any order
(`work`), all of them at once; any interleaving at the locks, and clocks that need not agree.  Take the parts of commands and the chores in the order in which they are
finished (`h`): the replies of all clients are exactly those of a server that does one of them at a time in this order (`Live`); a sweep does nothing that a client
could tell, a flush empties just its shard, and what a thread has shown of a shard is exactly what this server had in it at that moment (`ShardShown`).  (Unless a distance
counter of the hash table has wrapped, C01; memory is not low.) -/
theorem live_served (hv : c.Valid) (hn : 0 < n) {shs : Shards} (hA : AllInv c n shs) {now0 : Int} {s : Spec.State} (hR : R c n now0 shs s)
    (hs : ∀ k it, s.dict k = some it → it.value.length ≤ longest ∧ it.expires < 2 ^ 63) (hclock : ∀ t i, Fine (clock t i)) (hle : ∀ t i, now0 ≤ (clock t i).now)
    (hcl : Clients asks chunks cs ws) {work : Nat → Option (List Chore)} (hwork : ∀ t l, work t = some l → ∀ x ∈ l, x.shard < n ∧ now0 ≤ x.now)
    (hp : (live c n pw y clock addr).Ok) {h : List Nat} {s' : Conc.State ((Nat × Loc) ⊕ Worker) Sh}
    (he : Conc.Exec (live c n pw y clock addr) (liveStart pw y clock chunks work) shs s' h) :
    (∀ t l, s'.loc t = .inl l → (∃ j, l.2.job = .val j) ∨ l.2.job = .abort true) ∧ (∀ t w, s'.loc t = .inr w → ∃ g, w.got = .val g) ∧
    (NoWrap n s'.mem → ∃ ev rs ps m log, ev.map Prod.fst = h ∧ (∀ e ∈ ev, e.2 = none ↔ work e.1 = none) ∧ Live clock asks (shardIdx c n) (ofDict s.dict) ev rs ps m log ∧
      (∀ t l, s'.loc t = .inl l → work t = none ∧ Reads l.2.sent (rs t) ∧ (l.2.job = .val none → ps t = [] ∧ ∃ tail, Received (ws t) (chunks t).flatten (rs t).length tail)) ∧
      ∀ t w, s'.loc t = .inr w → work t = some (w.shown.map Prod.fst ++ w.todo) ∧
        List.Forall₂ (fun e z => e.2.1 = z.1 ∧ (z.1.kind = .show → ShardShown (shardIdx c n) z.1 e.2.2 z.2)) (log.filter fun e => e.1 = t) w.shown) := by
  obtain ⟨h1, h2, h3⟩ := live_from hv hn hA hR (agrees_ofDict hs now0) hclock hle hcl hwork hp he
  refine ⟨h1, h2, fun hnw => ?_⟩
  obtain ⟨ev, rs, ps, m, log, g1, g2, g3, g4, g5⟩ := h3 hnw
  refine ⟨ev, rs, ps, m, log, g1, g2, g3, g4, fun t w hw => ?_⟩
  obtain ⟨k1, k2⟩ := g5 t w hw
  refine ⟨k1, ?_⟩
  have hle' : ∀ z ∈ w.shown, now0 ≤ z.1.now := fun z hz => (hwork t _ k1 z.1 (List.mem_append_left _ (List.mem_map.2 ⟨z, hz, rfl⟩))).2
  clear hw k1 g5
  generalize log.filter (fun e => decide (e.1 = t)) = es at k2 ⊢
  generalize w.shown = zs at k2 hle' ⊢
  induction k2 with
  | nil => exact .nil
  | @cons e z es zs h1 _ ih => exact .cons ⟨h1.1, fun hk => seen_shown h1 (hle' z (by simp)) hk⟩ (ih fun z hz => hle' z (by simp [hz]))

/-- **C105** (`_partial`: the file is not the store at one moment, only for each shard the store at one moment, `save_not_snapshot`; and no item's deadline is the very wall-clock time at
which its block is loaded, C28).

While any number of RESP clients are served, with any number of sweeps and flushes (C104), threads save all shards; then the process ends, at any moment, also
in the middle of commands (this is what SIGTERM does).  The file is loaded into a new server as in C103, and clients are served by it.

The file loads without an error; the first clients got the replies of the server a user has in mind, and for each shard `i` there is one moment of this server, that of
the save of the shard, when its store was `M i`, such that the later clients get the replies of this server starting with the keys of each shard as they were at that
moment, with the same deadlines on the wall clock. -/
theorem live_restart_partial (hv : c.Valid) (hn : 0 < n) {shs : Shards} (hA : AllInv c n shs) {now0 : Int} {s : Spec.State} (hR : R c n now0 shs s)
    (hs : ∀ k it, s.dict k = some it → it.value.length ≤ longest ∧ it.expires < 2 ^ 63) (hclock : ∀ t i, Fine (clock t i)) (hle : ∀ t i, now0 ≤ (clock t i).now)
    (hcl : Clients asks chunks cs ws) {work : Nat → Option (List Chore)} (hwork : ∀ t l, work t = some l → ∀ x ∈ l, x.shard < n ∧ now0 ≤ x.now)
    (hp : (live c n pw y clock addr).Ok) {h : List Nat} {s' : Conc.State ((Nat × Loc) ⊕ Worker) Sh}
    (he : Conc.Exec (live c n pw y clock addr) (liveStart pw y clock chunks work) shs s' h) (hnw : NoWrap n s'.mem)
    -- the save
    {z : Lz4} (hz : z.Good) {word : List Nat} {clk : Nat → Int} {δ : Int} {shown : Nat → List (Bytes × Spec.Item)} {file : Bytes} (hword : word.Perm (List.range n))
    (hclk : ∀ i < n, 0 < clk i ∧ IsI64 (clk i) ∧ 0 ≤ clk i + δ ∧ clk i + δ < 2 ^ 63)
    (hshown : ∀ i < n, ∃ t w, s'.loc t = .inr w ∧ (⟨.show, i, clk i⟩, shown i) ∈ w.shown) (hfile : fileOf z clk δ shown word = some file)
    (hfit : ∀ i < n, ∀ x ∈ shown i, Fits x ∧ x.2.expires + δ < 2 ^ 63)
    (hsz : ∀ i < n, ∀ d, blockData (clk i) (clk i + δ) (shown i) = some d → d.length ≤ lz4Max)
    -- the load
    (hv' : c'.Valid) (hn' : 0 < n') {lt : Nat → Int} {δ' : Int} (hlt : ∀ j, 0 < lt j ∧ IsI64 (lt j) ∧ 0 ≤ lt j + δ' ∧ lt j + δ' < 2 ^ 63)
    (hfit' : ∀ i < n, ∀ x ∈ shown i, x.2.expires + δ - δ' < 2 ^ 63)
    (hne : ∀ i < n, ∀ x ∈ shown i, x.2.expires ≠ 0 → ∀ j, x.2.expires + δ ≠ lt j + δ')
    {l : List (Spec.StoreArgs × Int)} (hl : l.Perm (loadStores z lt δ' (readFile file).1)) (hlm : l.Pairwise fun a b => a.2 ≤ b.2)
    {shs2 : Shards} {rs2 : List Spec.Reply} (hload : run c' n' (l.map storeCall) (newCache c') = .val (shs2, rs2)) (hnw2 : NoWrap n' shs2)
    -- the later clients
    {now1 : Int} (hltn : ∀ j, lt j ≤ now1) (hclkn : ∀ i < n, clk i + δ ≤ now1 + δ') (hclock' : ∀ t i, Fine (clock' t i)) (hle' : ∀ t i, now1 ≤ (clock' t i).now)
    (hcl' : Clients asks' chunks' cs' ws') (hp' : (server c' n' pw' y' clock' addr').Ok) {h' : List Nat} {s2 : Conc.State (Nat × Loc) Sh}
    (he' : Conc.Exec (server c' n' pw' y' clock' addr') (fun t => (t, opened pw' y' (clock' t) (chunks' t))) shs2 s2 h') (hnw3 : NoWrap n' s2.mem) :
    ((readFile file).2 = true ∧ ∀ j, ∀ hj : j < (readFile file).1.length, (loadBlock z (lt j + δ') (readFile file).1[j].1 (readFile file).1[j].2).2 = true) ∧
    ∃ ev rs ps m log, ev.map Prod.fst = h ∧ (∀ e ∈ ev, e.2 = none ↔ work e.1 = none) ∧ Live clock asks (shardIdx c n) (ofDict s.dict) ev rs ps m log ∧
      (∀ t l, s'.loc t = .inl l → work t = none ∧ Reads l.2.sent (rs t) ∧ (l.2.job = .val none → ps t = [] ∧ ∃ tail, Received (ws t) (chunks t).flatten (rs t).length tail)) ∧
      ∃ M : Nat → Store, (∀ i < n, ∃ t, (t, ⟨.show, i, clk i⟩, M i) ∈ log) ∧
      (∀ t, (∃ j, (s2.loc t).2.job = .val j) ∨ (s2.loc t).2.job = .abort true) ∧
      ∃ rs' ps' m', ServedByKey clock' asks' (moved (δ - δ') fun k => M (shardIdx c n k) k) h' rs' ps' m' ∧ ∀ t, Reads (s2.loc t).2.sent (rs' t) ∧
        ((s2.loc t).2.job = .val none → ps' t = [] ∧ ∃ tail, Received (ws' t) (chunks' t).flatten (rs' t).length tail) := by
  obtain ⟨_, _, k2⟩ := live_from hv hn hA hR (agrees_ofDict hs now0) hclock hle hcl hwork hp he
  obtain ⟨ev, rs, ps, m, log, g1, g2, g3, g4, g5⟩ := k2 hnw
  -- the moments of the saves
  have hmom : ∀ i, ∃ (M : Store) (d : Spec.Dict), i < n → (∃ t, (t, ⟨.show, i, clk i⟩, M) ∈ log) ∧ now0 ≤ clk i ∧ Agrees now0 d M ∧ DictShows (shardIdx c n) ⟨.show, i, clk i⟩ d (shown i) := by
    intro i
    by_cases hi : i < n
    swap
    · exact ⟨fun _ => none, fun _ => none, fun hc => absurd hc hi⟩
    obtain ⟨t, w, e1, e2⟩ := hshown i hi
    obtain ⟨e3, e4⟩ := g5 t w e1
    have e5 := (hwork t _ e3 ⟨.show, i, clk i⟩ (List.mem_append_left _ (List.mem_map.2 ⟨_, e2, rfl⟩))).2
    have : ∀ {es : List (Nat × Chore × Store)} {zs : List (Chore × List (Bytes × Spec.Item))}, List.Forall₂ (Seen (shardIdx c n) now0) es zs → ∀ z ∈ zs, ∃ e ∈ es, Seen (shardIdx c n) now0 e z := by
      intro es zs hf
      induction hf with
      | nil => intro z hz; simp at hz
      | @cons e z es zs h1 _ ih =>
        intro z' hz
        rcases List.mem_cons.1 hz with rfl | hz
        · exact ⟨e, by simp, h1⟩
        · obtain ⟨e', he', h'⟩ := ih z' hz
          exact ⟨e', by simp [he'], h'⟩
    obtain ⟨⟨t', x, M⟩, f1, f2, d, f3, f4⟩ := this e4 _ e2
    simp only [] at f2 f3 f4
    subst f2
    exact ⟨M, d, fun _ => ⟨⟨t', (List.mem_filter.1 f1).1⟩, e5, f3, f4 trivial⟩⟩
  choose M D hMD using hmom
  have hgl := shardIdx_lt c hn
  set d : Spec.Dict := fun k => D (shardIdx c n k) k with hd
  have hdget : ∀ t k, d.get t k = (D (shardIdx c n k)).get t k := fun _ _ => rfl
  have hag : Agrees now0 d (fun k => M (shardIdx c n k) k) := by
    refine ⟨fun k => ?_, fun k x hx => ?_⟩
    · exact (hMD _ (hgl k)).2.2.1.1 k
    · exact (hMD _ (hgl k)).2.2.1.2 k x hx
  have hsaves : ∀ i < n, (∀ x ∈ shown i, d.get (clk i) x.1 = some x.2 ∧ shardIdx c n x.1 = i) ∧ ∀ k it, d.get (clk i) k = some it → shardIdx c n k = i → (k, it) ∈ shown i := by
    intro i hi
    obtain ⟨_, _, _, q1, q2⟩ := hMD i hi
    refine ⟨fun x hx => ?_, fun k it hk he => ?_⟩
    · obtain ⟨p1, p2⟩ := q1 x hx
      simp only [] at p1 p2
      refine ⟨?_, p2⟩
      rw [hdget, p2]
      exact p1
    · rw [hdget, he] at hk
      exact q2 k it hk he
  have hlec : ∀ i < n, now0 ≤ clk i := fun i hi => (hMD i hi).2.1
  obtain ⟨f1, f2⟩ := loaded_dict hz hgl hsaves hclk hword hfile hfit hsz
  obtain ⟨f3, f4⟩ := f2 lt δ' hlt hfit' hne
  obtain ⟨f5, f6⟩ := f4 l hl
  refine ⟨⟨f1, f3⟩, ev, rs, ps, m, log, g1, g2, g3, g4, M, fun i hi => (hMD i hi).1, ?_⟩
  -- the new cache
  have hlok : ∀ x ∈ l.map storeCall, x.ok := by
    intro x hx
    obtain ⟨w, hw, rfl⟩ := List.mem_map.1 hx
    exact (f5 w hw).1
  rcases run_refines hv' hn' _ (newCache c') (allInv_new hv' n') hlok (by rw [List.pairwise_map]; exact hlm) with ⟨shs', rs', h1, h2, hA2, hsp⟩ | hab
  swap
  · rw [hab] at hload; cases hload
  rw [hload] at h1
  simp only [Out.val.injEq, Prod.mk.injEq] at h1
  obtain ⟨rfl, rfl⟩ := h1
  obtain ⟨_, hsp⟩ := hsp hnw2
  obtain ⟨st2, now', hR2, _, _, hup, hst⟩ := hsp 0 _ (fun x hx => by have := (hlok x hx).1; omega) (R_new c' n' 0)
  have hn1 : 0 < now1 := by
    have := (hlt 0).1
    have := hltn 0
    omega
  have hR2 : R c' n' now1 shs2 st2 := by
    refine hR2.later (hup now1 (by omega) ?_)
    intro x hx
    obtain ⟨w, hw, rfl⟩ := List.mem_map.1 hx
    obtain ⟨j, hj⟩ := (f5 w hw).2
    simp only [storeCall]
    rw [hj]
    exact hltn j
  have hin : ∀ k it, d.get now0 k = some it → now1 + δ' < it.expires + δ → (k, it) ∈ shown (shardIdx c n k) := by
    intro k it hk hlive
    have hi := hgl k
    refine (hsaves _ hi).2 k it ?_ rfl
    have := hclkn _ hi
    obtain ⟨q1, _⟩ := Option.filter_eq_some_iff.1 hk
    unfold Spec.Dict.get
    rw [q1, Option.filter_eq_some_iff]
    refine ⟨rfl, ?_⟩
    unfold Spec.Item.visible
    simp
    omega
  have hag' := restored_moved (now1 := now1) (δ := δ) (δ' := δ') (d' := st2.dict) hag (by
    have := hclkn 0 hn
    have := hlec 0 hn
    omega) (fun k it hk hlive => hfit' _ (hgl k) _ (hin k it hk hlive))
    (fun k => f6 (by simpa using h2) hst k now1 hltn hclkn) (fun k it _ _ hlive => by omega)
  obtain ⟨k3, _, k4⟩ := clients_from hv' hn' hA2 hR2 hag' hclock' hle' hcl' hp' he'
  obtain ⟨rs', ps', m', q1, q2, _⟩ := k4 hnw3
  exact ⟨k3, rs', ps', m', q1, q2⟩

end

end Verif.Many
