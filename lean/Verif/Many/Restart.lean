import Mathlib.Tactic.Common
import Verif.Many.Props
import Verif.Save.Restore

/-!
C103: clients before and after a restart.
-/

namespace Verif.Many

open Verif.Num Verif.Resp Verif.Cmd Verif.Cache Verif.Shard Verif.Map Verif.Wire Verif.Save Function

/-- The same store, its times read on a clock that is `δ` ahead. -/
def moved (δ : Int) (m : Store) : Store := fun k => (m k).map fun x => ⟨x.value, x.upto.map (· + δ)⟩

theorem saves_nowrap {c : Ctx} (hv : c.Valid) {n : Nat} (hn : 0 < n) {shs shs1 : Shards} (hA : AllInv c n shs)
    {ord : List Nat} (hord : ord.Perm (List.range n)) {clk : Nat → Int} (hmono : ord.Pairwise fun i j => clk i ≤ clk j)
    (hclk : ∀ i < n, 0 < clk i ∧ IsI64 (clk i)) {rs1 : List Spec.Reply} (hsave : run c n (ord.map fun i => saveCall i (clk i)) shs = .val (shs1, rs1)) (hnw : NoWrap n shs1) :
    NoWrap n shs := by
  have hsok : ∀ x ∈ ord.map (fun i => saveCall i (clk i)), x.ok := by
    intro x hx
    obtain ⟨i, hi, rfl⟩ := List.mem_map.1 hx
    obtain ⟨p, q⟩ := hclk i (by simpa using hord.mem_iff.1 hi)
    exact ⟨p, q, by intro _ _; rfl, trivial⟩
  rcases run_refines hv hn _ shs hA hsok (by rw [List.pairwise_map]; exact hmono) with ⟨shs', rs', h1, _, _, hsp⟩ | hab
  swap
  · rw [hab] at hsave; cases hsave
  rw [hsave] at h1
  simp only [Out.val.injEq, Prod.mk.injEq] at h1
  obtain ⟨rfl, rfl⟩ := h1
  exact (hsp hnw).1

/-- What a save shows. -/
theorem saves_show {c : Ctx} (hv : c.Valid) {n : Nat} (hn : 0 < n) {shs shs1 : Shards} (hA : AllInv c n shs) {now0 : Int} {st : Spec.State} (hR : R c n now0 shs st)
    {ord : List Nat} (hord : ord.Perm (List.range n)) {clk : Nat → Int} (hmono : ord.Pairwise fun i j => clk i ≤ clk j) (hle : ∀ i < n, now0 ≤ clk i)
    (hclk : ∀ i < n, 0 < clk i ∧ IsI64 (clk i)) {rs1 : List Spec.Reply} (hsave : run c n (ord.map fun i => saveCall i (clk i)) shs = .val (shs1, rs1)) (hnw : NoWrap n shs1)
    {shown : Nat → List (Bytes × Spec.Item)} (hshown : rs1.map (·.shown) = ord.map shown) :
    ∀ i < n, (∀ x ∈ shown i, st.dict.get (clk i) x.1 = some x.2 ∧ shardIdx c n x.1 = i) ∧
      ∀ k it, st.dict.get (clk i) k = some it → shardIdx c n k = i → (k, it) ∈ shown i := by
  have hlt : ∀ i ∈ ord, i < n := fun i hi => by simpa using hord.mem_iff.1 hi
  have hsok : ∀ x ∈ ord.map (fun i => saveCall i (clk i)), x.ok := by
    intro x hx
    obtain ⟨i, hi, rfl⟩ := List.mem_map.1 hx
    obtain ⟨p, q⟩ := hclk i (hlt i hi)
    exact ⟨p, q, by intro _ _; rfl, trivial⟩
  rcases run_refines hv hn _ shs hA hsok (by rw [List.pairwise_map]; exact hmono) with ⟨shs', rs', h1, _, _, hsp⟩ | hab
  swap
  · rw [hab] at hsave; cases hsave
  rw [hsave] at h1
  simp only [Out.val.injEq, Prod.mk.injEq] at h1
  obtain ⟨rfl, rfl⟩ := h1
  obtain ⟨hnw0, hsp⟩ := hsp hnw
  obtain ⟨_, _, _, _, _, _, hst⟩ := hsp now0 st (fun x hx => by obtain ⟨i, hi, rfl⟩ := List.mem_map.1 hx; exact hle i (hlt i hi)) hR
  exact fun i hi => steps_saves ord clk shown hshown hst i (hord.mem_iff.2 (by simpa using hi))

/-- What is shown after the restart is what was there before it. -/
theorem restored_moved {now0 now1 δ δ' : Int} {d d' : Spec.Dict} {m : Store} (hag : Agrees now0 d m) (hle : now0 + δ ≤ now1 + δ')
    (hfit : ∀ k it, d.get now0 k = some it → now1 + δ' < it.expires + δ → it.expires + δ - δ' < 2 ^ 63)
    (h : ∀ k, (d'.get now1 k).map (fun it => (it.value, it.expires, it.flags)) =
      (restored d δ δ' now1 k).map fun it => (it.value, if it.expires = 0 then 0 else it.expires + δ - δ', it.flags))
    (hpos : ∀ k it, d.get now0 k = some it → it.expires ≠ 0 → now1 + δ' < it.expires + δ → it.expires + δ - δ' ≠ 0) :
    Agrees now1 d' (moved (δ - δ') m) := by
  have key : ∀ k, Store.see (fun k => (d' k).map kept) now1 k = (moved (δ - δ') m).see now1 k := by
    intro k
    rw [see_get]
    have hk := h k
    have ha := hag.1 k
    rw [see_get] at ha
    have e : (moved (δ - δ') m).see now1 k = (moved (δ - δ') (fun k => m.see now0 k)).see now1 k := by
      unfold Store.see moved
      beta_reduce
      cases m k with
      | none => rfl
      | some x =>
        obtain ⟨v, u⟩ := x
        cases u with
        | none => rfl
        | some e =>
          by_cases h1 : now1 < e + (δ - δ')
          · have h2 : now0 < e := by omega
            simp [Option.filter, h1, h2]
          · by_cases h2 : now0 < e <;> simp [Option.filter, h1, h2]
    rw [e]
    change _ = ((m.see now0 k).map fun x => (⟨x.value, x.upto.map (· + (δ - δ'))⟩ : Kept)).filter _
    rw [← ha]
    have hp := hpos k
    generalize d'.get now1 k = X at hk
    unfold restored at hk
    unfold Spec.Dict.get at hp ⊢
    cases hd : d k with
    | none =>
      rw [hd] at hk
      simp only [Option.filter, Option.map_none, Option.map_eq_none_iff] at hk
      rw [hk]
      rfl
    | some it =>
      rw [hd] at hk hp
      by_cases h0 : it.expires = 0
      · simp only [Option.filter, h0, true_or, decide_true, if_true, Option.map_some, Option.map_eq_some_iff] at hk
        obtain ⟨it', h1, h2⟩ := hk
        rw [h1]
        simp only [Prod.mk.injEq] at h2
        obtain ⟨e1, e2, _⟩ := h2
        simp [Option.filter, Spec.Item.visible, h0, kept, e1, e2]
      · by_cases h3 : now1 + δ' < it.expires + δ
        · simp only [Option.filter, h0, h3, or_true, decide_true, if_true, Option.map_some, Option.map_eq_some_iff, if_false] at hk
          obtain ⟨it', h1, h2⟩ := hk
          rw [h1]
          simp only [Prod.mk.injEq] at h2
          obtain ⟨e1, e2, _⟩ := h2
          have h4 : now0 < it.expires := by omega
          have h5 := hp it (by simp [Option.filter, Spec.Item.visible, h4]) h0 h3
          have h6 : now1 < it.expires + (δ - δ') := by omega
          simp [Option.filter, Spec.Item.visible, h0, kept, e1, e2, h4, h5, h6]
          omega
        · simp only [Option.filter, h0, h3, or_self, decide_false, Bool.false_eq_true, if_false, Option.map_none, Option.map_eq_none_iff] at hk
          rw [hk]
          by_cases h4 : now0 < it.expires
          · have h6 : ¬ now1 < it.expires + (δ - δ') := by omega
            simp [Option.filter, Spec.Item.visible, h0, kept, h4, h6]
          · simp [Option.filter, Spec.Item.visible, h0, h4]
  refine ⟨key, fun k x hx => ?_⟩
  unfold Store.see moved at hx
  rw [Option.filter_eq_some_iff, Option.map_eq_some_iff] at hx
  obtain ⟨⟨y, hy, rfl⟩, hl⟩ := hx
  have hsee : m.see now0 k = some y := by
    unfold Store.see
    rw [hy, Option.filter_eq_some_iff]
    refine ⟨rfl, ?_⟩
    cases hu : y.upto with
    | none => rfl
    | some e =>
      rw [hu] at hl
      simp at hl ⊢
      omega
  obtain ⟨f1, _⟩ := hag.2 k y hsee
  refine ⟨f1, fun e he => ?_⟩
  simp only [Option.map_eq_some_iff] at he
  obtain ⟨e0, he0, rfl⟩ := he
  have ha := hag.1 k
  rw [see_get, hsee, Option.map_eq_some_iff] at ha
  obtain ⟨it, h1, h2⟩ := ha
  have h3 : it.expires = e0 := by
    rw [← h2] at he0
    unfold kept at he0
    simp only [] at he0
    split at he0 <;> cases he0
    rfl
  rw [he0] at hl
  simp at hl
  have := hfit k it h1 (by omega)
  omega

section

variable {c c' : Ctx} {n n' : Nat} {pw pw' : Bytes} {y y' : Sys} {clock clock' : Nat → Nat → Env} {addr addr' : Nat → Nat}
  {asks asks' : Nat → List Ask} {chunks chunks' : Nat → List Bytes} {cs cs' : Nat → List (List Bytes)} {ws ws' : Nat → List Bytes}

/-- **C103** (`_partial`: no item's deadline is the very wall-clock time at which its block is loaded, C28).

Any number of RESP clients are served (`he`, as in C101) until all are idle.  Then the cache is saved, shard by shard, in any order `ord`, its blocks written in
any order `word`; and the file is loaded into a new server, with any hash function and number of shards, its stores made in any order `l`.  Then any number of RESP clients are served by
the new server.

The file loads without an error; the first clients get the replies of the server a user has in mind, which is left with the store `m`; and the later clients get
the replies of the same server going on with this store, with the same deadlines on the wall clock: the restart cannot be told from the replies.

Clocks: in each process the wall clock minus the monotonic clock is constant (`δ`, `δ'`); all allocations succeed; sizes fit
the format and LZ4 (`hfit`, `hsz`); no distance counter of a hash table has wrapped (C01). -/
theorem restart_served_partial (hv : c.Valid) (hn : 0 < n) {shs : Shards} (hA : AllInv c n shs) {now0 : Int} {s : Spec.State} (hR : R c n now0 shs s)
    (hs : ∀ k it, s.dict k = some it → it.value.length ≤ longest ∧ it.expires < 2 ^ 63) (hclock : ∀ t i, Fine (clock t i)) (hle : ∀ t i, now0 ≤ (clock t i).now)
    (hcl : Clients asks chunks cs ws) (hp : (server c n pw y clock addr).Ok) {h : List Nat} {s' : Conc.State (Nat × Loc) Sh}
    (he : Conc.Exec (server c n pw y clock addr) (fun t => (t, opened pw y (clock t) (chunks t))) shs s' h) (hidle : ∀ t, (s'.loc t).2.job = .val none)
    -- the save
    {z : Lz4} (hz : z.Good) {shs1 : Shards} {rs1 : List Spec.Reply} {ord word : List Nat} {clk : Nat → Int} {δ : Int} {shown : Nat → List (Bytes × Spec.Item)} {file : Bytes}
    (hord : ord.Perm (List.range n)) (hword : word.Perm (List.range n)) (hmono : ord.Pairwise fun i j => clk i ≤ clk j) (hlec : ∀ i < n, now0 ≤ clk i)
    (hclk : ∀ i < n, 0 < clk i ∧ IsI64 (clk i) ∧ 0 ≤ clk i + δ ∧ clk i + δ < 2 ^ 63)
    (hsave : run c n (ord.map fun i => saveCall i (clk i)) s'.mem = .val (shs1, rs1)) (hnw : NoWrap n shs1)
    (hshown : rs1.map (·.shown) = ord.map shown) (hfile : fileOf z clk δ shown word = some file)
    (hfit : ∀ i < n, ∀ x ∈ shown i, Fits x ∧ x.2.expires + δ < 2 ^ 63)
    (hsz : ∀ i < n, ∀ d, blockData (clk i) (clk i + δ) (shown i) = some d → d.length ≤ lz4Max)
    -- the load
    (hv' : c'.Valid) (hn' : 0 < n') {lt : Nat → Int} {δ' : Int} (hlt : ∀ j, 0 < lt j ∧ IsI64 (lt j) ∧ 0 ≤ lt j + δ' ∧ lt j + δ' < 2 ^ 63)
    (hfit' : ∀ i < n, ∀ x ∈ shown i, x.2.expires + δ - δ' < 2 ^ 63)
    (hne : ∀ i < n, ∀ x ∈ shown i, x.2.expires ≠ 0 → ∀ j, x.2.expires + δ ≠ lt j + δ')
    {l : List (Spec.StoreArgs × Int)} (hl : l.Perm (loadStores z lt δ' (readFile file).1)) (hlm : l.Pairwise fun a b => a.2 ≤ b.2)
    {shs2 : Shards} {rs2 : List Spec.Reply} (hload : run c' n' (l.map storeCall) (newCache c') = .val (shs2, rs2)) (hnw2 : NoWrap n' shs2)
    -- the later clients
    {now1 : Int} (hltn : ∀ j, lt j ≤ now1) (hclkn : ∀ i < n, clk i + δ ≤ now1 + δ') (hclock' : ∀ t i, Fine (clock' t i)) (hle' : ∀ t i, now1 ≤ (clock' t i).now)
    (hcl' : Clients asks' chunks' cs' ws') (hp' : (server c' n' pw' y' clock' addr').Ok) {h' : List Nat} {s2 : Conc.State (Nat × Loc) Sh}
    (he' : Conc.Exec (server c' n' pw' y' clock' addr') (fun t => (t, opened pw' y' (clock' t) (chunks' t))) shs2 s2 h') (hnw3 : NoWrap n' s2.mem) :
    ((readFile file).2 = true ∧ ∀ j, ∀ hj : j < (readFile file).1.length, (loadBlock z (lt j + δ') (readFile file).1[j].1 (readFile file).1[j].2).2 = true) ∧
    ∃ rs m, ServedByKey clock asks (ofDict s.dict) h rs (fun _ => []) m ∧
      (∀ t, Reads (s'.loc t).2.sent (rs t) ∧ ∃ tail, Received (ws t) (chunks t).flatten (rs t).length tail) ∧
      (∀ t, (∃ j, (s2.loc t).2.job = .val j) ∨ (s2.loc t).2.job = .abort true) ∧
      ∃ rs' ps' m', ServedByKey clock' asks' (moved (δ - δ') m) h' rs' ps' m' ∧ ∀ t, Reads (s2.loc t).2.sent (rs' t) ∧
        ((s2.loc t).2.job = .val none → ps' t = [] ∧ ∃ tail, Received (ws' t) (chunks' t).flatten (rs' t).length tail) := by
  obtain ⟨_, k1, k2⟩ := clients_from hv hn hA hR (agrees_ofDict hs now0) hclock hle hcl hp he
  have hAm := k1 hidle
  have hnwm : NoWrap n s'.mem := saves_nowrap hv hn hAm hord hmono (fun i hi => ⟨(hclk i hi).1, (hclk i hi).2.1⟩) hsave hnw
  obtain ⟨rs, ps, m, g1, g2, g3⟩ := k2 hnwm
  obtain ⟨st, hRm, hag⟩ := g3 hidle
  have hps : ps = fun _ => [] := funext fun t => ((g2 t).2 (hidle t)).1
  subst hps
  have hsaves := saves_show hv hn hAm hRm hord hmono hlec (fun i hi => ⟨(hclk i hi).1, (hclk i hi).2.1⟩) hsave hnw hshown
  obtain ⟨f1, f2⟩ := loaded_dict hz (shardIdx_lt c hn) hsaves hclk hword hfile hfit hsz
  obtain ⟨f3, f4⟩ := f2 lt δ' hlt hfit' hne
  obtain ⟨f5, f6⟩ := f4 l hl
  refine ⟨⟨f1, f3⟩, rs, m, g1, fun t => ⟨(g2 t).1, ((g2 t).2 (hidle t)).2⟩, ?_⟩
  -- the new cache
  have hlok : ∀ x ∈ l.map storeCall, x.ok := by
    intro x hx
    obtain ⟨w, hw, rfl⟩ := List.mem_map.1 hx
    exact (f5 w hw).1
  rcases run_refines hv' hn' _ (newCache c') (allInv_new hv' n') hlok (by rw [List.pairwise_map]; exact hlm) with ⟨shs', rs', h1, h2, hA2, hsp⟩ | hab
  swap
  · rw [hab] at hload; cases hload
  rw [hload] at h1
  simp only [Out.val.injEq, Prod.mk.injEq] at h1
  obtain ⟨rfl, rfl⟩ := h1
  obtain ⟨_, hsp⟩ := hsp hnw2
  obtain ⟨st2, now', hR2, _, _, hup, hst⟩ := hsp 0 _ (fun x hx => by have := (hlok x hx).1; omega) (R_new c' n' 0)
  have hR2 : R c' n' now1 shs2 st2 := by
    refine hR2.later (hup now1 ?_ ?_)
    · have := (hlt 0).1
      have := hltn 0
      omega
    · intro x hx
      obtain ⟨w, hw, rfl⟩ := List.mem_map.1 hx
      obtain ⟨j, hj⟩ := (f5 w hw).2
      simp only [storeCall]
      rw [hj]
      exact hltn j
  have hn1 : 0 < now1 := by
    have := (hlt 0).1
    have := hltn 0
    omega
  have hin : ∀ k it, st.dict.get now0 k = some it → now1 + δ' < it.expires + δ → (k, it) ∈ shown (shardIdx c n k) := by
    intro k it hk hlive
    have hi := shardIdx_lt c hn k
    refine (hsaves _ hi).2 k it ?_ rfl
    have := hclkn _ hi
    obtain ⟨q1, _⟩ := Option.filter_eq_some_iff.1 hk
    unfold Spec.Dict.get
    rw [q1, Option.filter_eq_some_iff]
    refine ⟨rfl, ?_⟩
    unfold Spec.Item.visible
    simp
    omega
  have hag' := restored_moved (now1 := now1) (δ := δ) (δ' := δ') (d' := st2.dict) hag (by
    have := hclkn 0 hn
    have := hlec 0 hn
    omega) (fun k it hk hlive => hfit' _ (shardIdx_lt c hn k) _ (hin k it hk hlive))
    (fun k => f6 (by simpa using h2) hst k now1 hltn hclkn) (fun k it _ _ hlive => by omega)
  obtain ⟨k3, _, k4⟩ := clients_from hv' hn' hA2 hR2 hag' hclock' hle' hcl' hp' he'
  obtain ⟨rs', ps', m', q1, q2, _⟩ := k4 hnw3
  exact ⟨k3, rs', ps', m', q1, q2⟩

end

end Verif.Many
