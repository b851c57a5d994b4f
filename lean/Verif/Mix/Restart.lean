import Mathlib.Tactic.Common
import Verif.Mix.Cas
import Verif.Many.Restart

/-!
C114: clients of all protocols before and after a restart.
-/

namespace Verif.Mix

open Verif.Num Verif.Resp Verif.Cmd Verif.Cache Verif.Shard Verif.Map Verif.Save Function

/-- What a client sees of a key but for the token. -/
def bare (x : McWire.Held) : Bytes × Nat × Option Int := (x.value, x.flags, x.upto)

/-- The same item, its time read on a clock that is `δ` ahead. -/
def later (δ : Int) (x : McWire.Held) : McWire.Held := { x with upto := x.upto.map (· + δ) }

/-- At the time `now` of the new clock, which is `δ` ahead, the keys have the same values, flags and times as before.  The tokens are others. -/
def Restarted (δ now : Int) (m m' : Store) : Prop :=
  ∀ k, (m'.see now k).map bare = (((m.has k).map (later δ)).filter fun x => x.upto.all fun d => decide (now < d)).map bare

/-- No item has a token beyond the counter of its group. -/
def Counted (env : Spec.Env) (s : Spec.State) : Prop := ∀ k it, s.dict k = some it → it.cas ≤ s.tok (env.grp k)

theorem counted_put {env : Spec.Env} {s : Spec.State} (h : Counted env s) {k : Bytes} {it : Spec.Item} {tok' : Nat → Nat} (ht : ∀ i, s.tok i ≤ tok' i) (hc : it.cas ≤ tok' (env.grp k)) :
    Counted env ⟨update s.dict k (some it), tok'⟩ := by
  intro j it' hj
  simp only [] at hj ⊢
  by_cases hk : j = k
  · subst hk
    rw [update_self] at hj
    cases hj
    exact hc
  · rw [update_of_ne hk] at hj
    exact Nat.le_trans (h j it' hj) (ht _)

theorem either {P A B : Prop} [Decidable P] (h : if P then A else B) : A ∨ B := by
  split at h
  · exact Or.inl h
  · exact Or.inr h

theorem counted_store {env : Spec.Env} {oom : Bool} {now : Int} {a : Spec.StoreArgs} {s s' : Spec.State} {r : Spec.Reply} (h : Counted env s)
    (hs : Spec.Step env oom now (.store a) s r s') : Counted env s' := by
  have ht : ∀ i, s.tok i ≤ update s.tok (env.grp a.key) (s.tok (env.grp a.key) + 1) i := by
    intro i
    by_cases hi : i = env.grp a.key
    · subst hi; rw [update_self]; omega
    · rw [update_of_ne hi]
  have hsame : Counted env ⟨s.dict, update s.tok (env.grp a.key) (s.tok (env.grp a.key) + 1)⟩ := fun k it hk => Nat.le_trans (h k it hk) (ht _)
  have hnew : ∀ (v : Bytes) (e : Int) (f : Nat), Counted env ⟨update s.dict a.key
      (some ⟨v, e, f, if env.usecas then update s.tok (env.grp a.key) (s.tok (env.grp a.key) + 1) (env.grp a.key) else 0⟩), update s.tok (env.grp a.key) (s.tok (env.grp a.key) + 1)⟩ :=
    fun v e f => counted_put h ht (by simp only []; split <;> omega)
  unfold Spec.Step at hs
  simp only [] at hs
  split at hs
  · rw [hs.2]; exact hsame
  · rcases hs with ⟨_, _, rfl⟩ | hs
    · exact hsame
    · split at hs
      · rcases either hs with hs | hs
        · rw [hs.2]; exact hsame
        · rcases either hs with hs | hs
          · rw [hs.2]; exact hsame
          · rw [hs.2]; exact hnew _ _ _
      · rcases either hs with hs | hs
        · rw [hs.2]; exact hsame
        · rcases hs.2 with hs | ⟨_, v, _, hs⟩
          · rw [hs]; exact hnew _ _ _
          · rw [hs]
            intro k it hk
            simp only [] at hk ⊢
            by_cases hv : k = v
            · subst hv; rw [update_self] at hk; cases hk
            · rw [update_of_ne hv] at hk
              exact hnew _ _ _ k it hk

theorem counted_loads {env : Spec.Env} : ∀ (l : List (Spec.StoreArgs × Int)) (rs : List Spec.Reply) (s s' : Spec.State), Counted env s → rs.length = l.length →
    Spec.Steps env (((l.map storeCall).map HCall.timed).zip rs) s s' → Counted env s'
  | [], _, s, s', h, _, hst => by cases hst; exact h
  | x :: l, [], _, _, _, hlen, _ => by simp at hlen
  | x :: l, r :: rs, s, s', h, hlen, hst => by
    cases hst with
    | cons h1 h2 => exact counted_loads l rs _ _ (counted_store h h1) (by simpa using hlen) h2

/-- What is shown after the restart is what was there before it. -/
theorem restarted_of {grp : Bytes → Nat} {u : Bytes → Nat} {now0 now1 δ δ' : Int} {st : Spec.State} {d' : Spec.Dict} {m : Store} (hag : Agr grp now0 st m) (hle : now0 + δ ≤ now1 + δ') (hn : 0 < now1)
    (h : ∀ k, (d'.get now1 k).map (fun it => (it.value, it.expires, it.flags)) =
      (restored st.dict δ δ' now1 k).map fun it => (it.value, if it.expires = 0 then 0 else it.expires + δ - δ', it.flags)) :
    Restarted (δ - δ') now1 m ⟨fun k => (d' k).map McWire.held, u⟩ := by
  intro k
  rw [McWire.see_get]
  have hk := h k
  have ha := hag.1.1 k
  have e : ((m.has k).map (later (δ - δ'))).filter (fun x => x.upto.all fun d => decide (now1 < d)) =
      ((m.see now0 k).map (later (δ - δ'))).filter fun x => x.upto.all fun d => decide (now1 < d) := by
    unfold McWire.Store.see
    cases m.has k with
    | none => rfl
    | some x =>
      obtain ⟨v, f, u, cas⟩ := x
      cases u with
      | none => rfl
      | some e =>
        by_cases h1 : now1 < e + (δ - δ')
        · have h2 : now0 < e := by omega
          simp [Option.filter, later, h2]
        · by_cases h2 : now0 < e <;> simp [Option.filter, later, h1, h2]
  rw [e, ← ha]
  clear e ha
  generalize d'.get now1 k = X at hk
  unfold restored at hk
  unfold Spec.Dict.get
  cases hd : st.dict k with
  | none =>
    rw [hd] at hk
    simp only [Option.filter, Option.map_none, Option.map_eq_none_iff] at hk
    rw [hk]
    rfl
  | some it =>
    rw [hd] at hk
    by_cases h0 : it.expires = 0
    · simp only [Option.filter, h0, true_or, decide_true, if_true, Option.map_some, Option.map_eq_some_iff] at hk
      obtain ⟨it', h1, h2⟩ := hk
      rw [h1]
      simp only [Prod.mk.injEq] at h2
      obtain ⟨e1, e2, e3⟩ := h2
      simp [Option.filter, Spec.Item.visible, h0, McWire.held, bare, later, e1, e2, e3]
    · by_cases h3 : now1 + δ' < it.expires + δ
      · simp only [Option.filter, h0, h3, or_true, decide_true, if_true, Option.map_some, Option.map_eq_some_iff, if_false] at hk
        obtain ⟨it', h1, h2⟩ := hk
        rw [h1]
        simp only [Prod.mk.injEq] at h2
        obtain ⟨e1, e2, e3⟩ := h2
        have h4 : now0 < it.expires := by omega
        have h5 : it.expires + δ - δ' ≠ 0 := by omega
        have h6 : now1 < it.expires + (δ - δ') := by omega
        simp [Option.filter, Spec.Item.visible, h0, McWire.held, bare, later, e1, e2, e3, h4, h5, h6]
        omega
      · simp only [Option.filter, h0, h3, or_self, decide_false, Bool.false_eq_true, if_false, Option.map_none, Option.map_eq_none_iff] at hk
        rw [hk]
        by_cases h4 : now0 < it.expires
        · have h6 : ¬ now1 < it.expires + (δ - δ') := by omega
          simp [Option.filter, Spec.Item.visible, h0, McWire.held, later, h4, h6]
        · simp [Option.filter, Spec.Item.visible, h0, h4]

section

variable {c c' : Ctx} {n n' : Nat} {pw pw' : Bytes} {y y' : Sys} {kind kind' : Nat → Kind} {clock clock' : Nat → Nat → Env} {addr addr' : Nat → Nat}
  {asks asks' : Nat → List Ask} {chunks chunks' : Nat → List Bytes} {ws ws' : Nat → List Bytes}

/-- **C114** (`_partial`: no item's deadline is the very wall-clock time at which its block is loaded, C28; and the tokens of the items are new ones, see
`Example.restart_reuses_token`).

Any number of RESP, memcache, HTTP and Postgres clients are served (`he`, as in C110) until all are idle.  Then the cache is saved, shard by shard, in any order, its blocks written in any
order; and the file is loaded into a new server, with any hash function and number of shards, its stores made in any order.  Then any number of clients of any of the protocols are
served by the new server.

The file loads without an error; the first clients get the replies of the server a user has in mind, which is left with the store `m`; and the later clients get
the replies of the same server going on with a store of the same values, flags and deadlines on the wall clock.  Among the first clients, and among the later ones, no update is lost (C107).

Assumptions as in C103 and C110. -/
theorem restart_all_served_partial (hv : c.Valid) (hu : c.usecas = true) (hn : 0 < n) {shs : Shards} (hA : AllInv c n shs) {now0 : Int} {s : Spec.State} (hR : R c n now0 shs s)
    (hs : ∀ k it, s.dict k = some it → it.value.length ≤ Wire.longest ∧ it.expires < 2 ^ 63) (hver : ∀ b ∈ y.version, 32 ≤ b)
    (hclock : ∀ t i, Fine (kind t) (clock t i)) (hle : ∀ t i, now0 ≤ (clock t i).now) (hcl : Clients pw kind asks chunks ws) (hp : (server c n kind pw y clock addr).Ok)
    {h : List Nat} {s' : Conc.State (Nat × Loc) Sh}
    (he : Conc.Exec (server c n kind pw y clock addr) (fun t => (t, opened (kind t) pw y (clock t) (chunks t))) shs s' h) (hidle : ∀ t, (s'.loc t).2.job = .val none)
    -- the save
    {z : Lz4} (hz : z.Good) {shs1 : Shards} {rs1 : List Spec.Reply} {ord word : List Nat} {clk : Nat → Int} {δ : Int} {shown : Nat → List (Bytes × Spec.Item)} {file : Bytes}
    (hord : ord.Perm (List.range n)) (hword : word.Perm (List.range n)) (hmono : ord.Pairwise fun i j => clk i ≤ clk j) (hlec : ∀ i < n, now0 ≤ clk i)
    (hclk : ∀ i < n, 0 < clk i ∧ IsI64 (clk i) ∧ 0 ≤ clk i + δ ∧ clk i + δ < 2 ^ 63)
    (hsave : Cache.run c n (ord.map fun i => saveCall i (clk i)) s'.mem = .val (shs1, rs1)) (hnw : NoWrap n shs1)
    (hshown : rs1.map (·.shown) = ord.map shown) (hfile : fileOf z clk δ shown word = some file)
    (hfit : ∀ i < n, ∀ x ∈ shown i, Fits x ∧ x.2.expires + δ < 2 ^ 63)
    (hsz : ∀ i < n, ∀ d, blockData (clk i) (clk i + δ) (shown i) = some d → d.length ≤ lz4Max)
    -- the load
    (hv' : c'.Valid) (hu' : c'.usecas = true) (hn' : 0 < n') {lt : Nat → Int} {δ' : Int} (hlt : ∀ j, 0 < lt j ∧ IsI64 (lt j) ∧ 0 ≤ lt j + δ' ∧ lt j + δ' < 2 ^ 63)
    (hfit' : ∀ i < n, ∀ x ∈ shown i, x.2.expires + δ - δ' < 2 ^ 63)
    (hne : ∀ i < n, ∀ x ∈ shown i, x.2.expires ≠ 0 → ∀ j, x.2.expires + δ ≠ lt j + δ')
    {l : List (Spec.StoreArgs × Int)} (hl : l.Perm (loadStores z lt δ' (readFile file).1)) (hlm : l.Pairwise fun a b => a.2 ≤ b.2)
    {shs2 : Shards} {rs2 : List Spec.Reply} (hload : Cache.run c' n' (l.map storeCall) (newCache c') = .val (shs2, rs2)) (hnw2 : NoWrap n' shs2)
    -- the later clients
    {now1 : Int} (hltn : ∀ j, lt j ≤ now1) (hclkn : ∀ i < n, clk i + δ ≤ now1 + δ') (hver' : ∀ b ∈ y'.version, 32 ≤ b) (hclock' : ∀ t i, Fine (kind' t) (clock' t i))
    (hle' : ∀ t i, now1 ≤ (clock' t i).now) (hcl' : Clients pw' kind' asks' chunks' ws') (hp' : (server c' n' kind' pw' y' clock' addr').Ok) {h' : List Nat} {s2 : Conc.State (Nat × Loc) Sh}
    (he' : Conc.Exec (server c' n' kind' pw' y' clock' addr') (fun t => (t, opened (kind' t) pw' y' (clock' t) (chunks' t))) shs2 s2 h') (hnw3 : NoWrap n' s2.mem) :
    ((readFile file).2 = true ∧ ∀ j, ∀ hj : j < (readFile file).1.length, (loadBlock z (lt j + δ') (readFile file).1[j].1 (readFile file).1[j].2).2 = true) ∧
    ∃ evs rs m, evs.map (·.who) = h ∧ Story y.version clock asks (McWire.ofState (shardIdx c n) s) evs rs (fun _ => []) m ∧
      (Bounded (McWire.ofState (shardIdx c n) s) → NoLostUpdate evs ∧ OneWinner evs) ∧
      (∀ t, Reads (s'.loc t).2.sent (rs t) ∧ ∃ tail, Received (ws t) (chunks t).flatten (rs t).length tail) ∧
      (∀ t, (∃ j, (s2.loc t).2.job = .val j) ∨ (s2.loc t).2.job = .abort true) ∧
      ∃ m1 evs' rs' ps' m', Restarted (δ - δ') now1 m m1 ∧ evs'.map (·.who) = h' ∧ Story y'.version clock' asks' m1 evs' rs' ps' m' ∧ NoLostUpdate evs' ∧ OneWinner evs' ∧
        ∀ t, Reads (s2.loc t).2.sent (rs' t) ∧ ((s2.loc t).2.job = .val none → ps' t = [] ∧ ∃ tail, Received (ws' t) (chunks' t).flatten (rs' t).length tail) := by
  obtain ⟨cs, hcs⟩ := hcl.parsed hver
  obtain ⟨cs', hcs'⟩ := hcl'.parsed hver'
  obtain ⟨_, k1, k2⟩ := clients_from hv hu hn hA hR (agr_ofState hs now0) hclock hle hcs hp he
  have hAm := k1 hidle
  have hnwm : NoWrap n s'.mem := Many.saves_nowrap hv hn hAm hord hmono (fun i hi => ⟨(hclk i hi).1, (hclk i hi).2.1⟩) hsave hnw
  obtain ⟨evs, rs, ps, m, g0, g1, g2, g3⟩ := k2 hnwm
  obtain ⟨st, hRm, hag⟩ := g3 hidle
  have hps : ps = fun _ => [] := funext fun t => ((g2 t).2 (hidle t)).1
  subst hps
  have hsaves := Many.saves_show hv hn hAm hRm hord hmono hlec (fun i hi => ⟨(hclk i hi).1, (hclk i hi).2.1⟩) hsave hnw hshown
  obtain ⟨f1, f2⟩ := loaded_dict hz (shardIdx_lt c hn) hsaves hclk hword hfile hfit hsz
  obtain ⟨f3, f4⟩ := f2 lt δ' hlt hfit' hne
  obtain ⟨f5, f6⟩ := f4 l hl
  refine ⟨⟨f1, f3⟩, evs, rs, m, g0, g1, fun hb => ⟨no_lost_update g1 hb, one_winner g1 hb⟩, fun t => ⟨(g2 t).1, ((g2 t).2 (hidle t)).2⟩, ?_⟩
  -- the new cache
  have hlok : ∀ x ∈ l.map storeCall, x.ok := by
    intro x hx
    obtain ⟨w, hw, rfl⟩ := List.mem_map.1 hx
    exact (f5 w hw).1
  rcases run_refines hv' hn' _ (newCache c') (allInv_new hv' n') hlok (by rw [List.pairwise_map]; exact hlm) with ⟨shs', rs', h1, h2, hA2, hsp⟩ | hab
  swap
  · rw [hab] at hload; cases hload
  rw [hload] at h1
  simp only [Out.val.injEq, Prod.mk.injEq] at h1
  obtain ⟨rfl, rfl⟩ := h1
  obtain ⟨_, hsp⟩ := hsp hnw2
  obtain ⟨st2, now', hR2, _, _, hup, hst⟩ := hsp 0 _ (fun x hx => by have := (hlok x hx).1; omega) (R_new c' n' 0)
  have hn1 : 0 < now1 := by
    have := (hlt 0).1
    have := hltn 0
    omega
  have hR2 : R c' n' now1 shs2 st2 := by
    refine hR2.later (hup now1 (by omega) ?_)
    intro x hx
    obtain ⟨w, hw, rfl⟩ := List.mem_map.1 hx
    obtain ⟨j, hj⟩ := (f5 w hw).2
    simp only [storeCall]
    rw [hj]
    exact hltn j
  have hlen : rs2.length = l.length := by simpa using h2
  have hcount := counted_loads l rs2 _ _ (by intro k it hk; cases hk) hlen hst
  have hle1 : now0 + δ ≤ now1 + δ' := by
    have := hclkn 0 hn
    have := hlec 0 hn
    omega
  have hf6 := fun k => f6 hlen hst k now1 hltn hclkn
  have hin : ∀ k it, st.dict.get now0 k = some it → now1 + δ' < it.expires + δ → (k, it) ∈ shown (shardIdx c n k) := by
    intro k it hk hlive
    have hi := shardIdx_lt c hn k
    refine (hsaves _ hi).2 k it ?_ rfl
    have := hclkn _ hi
    obtain ⟨q1, _⟩ := Option.filter_eq_some_iff.1 hk
    unfold Spec.Dict.get
    rw [q1, Option.filter_eq_some_iff]
    refine ⟨rfl, ?_⟩
    unfold Spec.Item.visible
    simp
    omega
  have hs2 : ∀ k it, (live now1 st2).dict k = some it → it.value.length ≤ Wire.longest ∧ it.expires < 2 ^ 63 := by
    intro k it hk
    have hk' : st2.dict.get now1 k = some it := hk
    have := hf6 k
    rw [hk', Option.map_some] at this
    obtain ⟨it0, w1, w2⟩ := Option.map_eq_some_iff.1 this.symm
    simp only [Prod.mk.injEq] at w2
    obtain ⟨e1, e2, _⟩ := w2
    obtain ⟨w3, w4⟩ := Option.filter_eq_some_iff.1 w1
    simp only [decide_eq_true_eq] at w4
    have hget : st.dict.get now0 k = some it0 := by
      unfold Spec.Dict.get
      rw [w3, Option.filter_eq_some_iff]
      refine ⟨rfl, ?_⟩
      unfold Spec.Item.visible
      simp
      omega
    have hsee := hag.1.1 k
    rw [hget] at hsee
    refine ⟨e1 ▸ (hag.2 k _ hsee.symm).1, ?_⟩
    rw [← e2]
    by_cases h0 : it0.expires = 0
    · rw [if_pos h0]; norm_num
    · rw [if_neg h0]
      exact hfit' _ (shardIdx_lt c hn k) _ (hin k it0 hget (by omega))
  obtain ⟨k3, _, k4⟩ := clients_from hv' hu' hn' hA2 (live_R hR2) (agr_ofState hs2 now1) hclock' hle' hcs' hp' he'
  obtain ⟨evs', rs', ps', m', q0, q1, q2, _⟩ := k4 hnw3
  have hb : Bounded (McWire.ofState (shardIdx c' n') (live now1 st2)) := by
    intro k x hx
    obtain ⟨it, h5, rfl⟩ := Option.map_eq_some_iff.1 hx
    exact hcount k it (Option.filter_eq_some_iff.1 h5).1
  refine ⟨k3, _, evs', rs', ps', m', restarted_of hag hle1 hn1 (d' := (live now1 st2).dict) (fun k => ?_), q0, q1, no_lost_update q1 hb, one_winner q1 hb, q2⟩
  unfold live
  rw [get_get _ _ _ (Int.le_refl _)]
  exact hf6 k

end

end Verif.Mix
