import Mathlib.Tactic.Common
import Verif.Mix.Live
import Verif.Mix.RestartExamples
import Verif.Many.LiveExamples

/-!
C123, C124: concrete cases.
-/

namespace Verif.Mix.Example

open Verif.Num Verif.Resp Verif.Cmd Verif.Cache Verif.Shard Verif.Map Verif.Save Verif.Many Verif.Many.Example Function

theorem live_ok {c : Ctx} {n : Nat} : (Mix.liveServer c n kind [] Wire.Example.sys clock addr).Ok := by
  obtain ⟨h1, h2, h3⟩ := addr_ok2 (c := c) (n := n)
  exact ⟨h1, h2, h3⟩

/-- The memcache client stores 41, asks for the token, and stores `x` with it. -/
def asks3 : Nat → List Mix.Ask := two [.mc (.store .set [107] [52, 49] 5 0), .mc (.get true [[107]]), .mc (.store (.cas 2) [107] [120] 7 0)] []

/-- On the wire. -/
def wire3 : Nat → List Bytes := two [r1.wire, gets, r2.wire] []

theorem clients3 : Mix.Clients [] kind asks3 wire3 wire3 := by
  have key : Mc.Key [107] := by unfold Mc.Key; decide
  have nat : ∀ (t : Bytes) (n : Nat), (t ≠ [] ∧ t.length ≤ 20 ∧ (∀ b ∈ t, b ∈ ([48, 49, 50, 51, 52, 53, 54, 55, 56, 57] : Bytes)) ∧ decimal t = n) → Mc.NatText t n :=
    fun t n h => h
  have ok1 : r1.Ok 5 0 0 := ⟨key, nat _ _ (by decide), by decide, Or.inl ⟨0, nat _ _ (by decide), rfl, by decide⟩, by unfold IsI64; decide, nat _ _ (by decide), by decide, nat _ _ (by decide), by decide⟩
  have ok2 : r2.Ok 7 0 2 := ⟨key, nat _ _ (by decide), by decide, Or.inl ⟨0, nat _ _ (by decide), rfl, by decide⟩, by unfold IsI64; decide, nat _ _ (by decide), by decide, nat _ _ (by decide), by decide⟩
  have hg : Mix.Written .memcache (.mc (.get true [[107]])) gets := .mc (.get (tokens := true) (by simp) (by simpa using key))
  exact clients_two (.cons (.mc (.store (how := .set) ok1 rfl rfl (by simp))) (.cons hg (.cons (.mc (.store (how := .cas 2) ok2 rfl rfl (by simp))) .nil))) .nil

/-- Thread 2 does one chore on the shard of the key. -/
def chorer (k : Many.Kind) (t : Nat) : Option (List Chore) := if t = 2 then some [⟨k, 0, 1500⟩] else none

theorem chorer_work (k : Many.Kind) (t : Nat) (l : List Chore) (h : chorer k t = some l) : ∀ x ∈ l, x.shard < 4 ∧ 0 ≤ x.now := by
  unfold chorer at h
  split at h
  · simp only [Option.some.injEq] at h
    subst h
    simp
  · cases h

/-- The chore is done after the client has got its token. -/
def sched3 : List Nat := List.replicate 10 0 ++ List.replicate 5 2 ++ List.replicate 5 0

/-- What client `t` was sent, if it is idle. -/
def sentTo (s : Conc.State ((Nat × Mix.Loc) ⊕ Worker) Sh) (t : Nat) : Option Bytes :=
  match s.loc t with
  | .inr _ => none
  | .inl l => match l.2.job with | .val none => some l.2.sent | _ => none

/-- What thread `t` has shown. -/
def shownBy (s : Conc.State ((Nat × Mix.Loc) ⊕ Worker) Sh) (t : Nat) : List (Chore × List (Bytes × Spec.Item)) :=
  match s.loc t with
  | .inr w => w.shown
  | .inl _ => []

/-- An execution with such a chore. -/
def ran (k : Many.Kind) : Option (Bool × Option Bytes × List Nat) :=
  (runSched (Mix.liveServer ctx4 4 kind [] Wire.Example.sys clock addr) sched3
    (Conc.start (Mix.liveStart kind [] Wire.Example.sys clock wire3 (chorer k)) (newCache ctx4)) []).map fun x => (noWrapB 4 x.1.mem, sentTo x.1 0, x.2)

/-- All hypotheses of `live_served`: with a sweep in between, the `cas` stores; with a flush in between, it is told NOT_FOUND (with the zero byte of C100). -/
theorem live_cases (k : Many.Kind) (hk : k ≠ .show) :
    ∃ s', ctx4.Valid ∧ ctx4.usecas = true ∧ AllInv ctx4 4 (newCache ctx4) ∧ R ctx4 4 0 (newCache ctx4) ⟨fun _ => none, fun _ => 1⟩ ∧ (∀ b ∈ Wire.Example.sys.version, 32 ≤ b) ∧
    (∀ t i, Mix.Fine (kind t) (clock t i)) ∧ (∀ t i, 0 ≤ (clock t i).now) ∧ Mix.Clients [] kind asks3 wire3 wire3 ∧ (∀ t l, chorer k t = some l → ∀ x ∈ l, x.shard < 4 ∧ 0 ≤ x.now) ∧
    (Mix.liveServer ctx4 4 kind [] Wire.Example.sys clock addr).Ok ∧
    Conc.Exec (Mix.liveServer ctx4 4 kind [] Wire.Example.sys clock addr) (Mix.liveStart kind [] Wire.Example.sys clock wire3 (chorer k)) (newCache ctx4) s' [0, 0, 2, 0] ∧ NoWrap 4 s'.mem ∧
    sentTo s' 0 = some (sent1 ++ if k = .sweep then [83, 84, 79, 82, 69, 68, 13, 10] else [78, 79, 84, 95, 70, 79, 85, 78, 68, 13, 10, 0]) := by
  have hb : ran k = some (true, some (sent1 ++ if k = .sweep then [83, 84, 79, 82, 69, 68, 13, 10] else [78, 79, 84, 95, 70, 79, 85, 78, 68, 13, 10, 0]), [0, 0, 2, 0]) := by
    cases k with
    | «show» => exact absurd rfl hk
    | sweep => decide +kernel
    | clear => decide +kernel
  unfold ran at hb
  rw [Option.map_eq_some_iff] at hb
  obtain ⟨⟨s', h⟩, h1, h2⟩ := hb
  simp only [Prod.mk.injEq] at h2
  obtain ⟨b1, b2, rfl⟩ := h2
  exact ⟨s', ctx4_valid, rfl, allInv_new ctx4_valid 4, R_new ctx4 4 0, by decide, fine, late, clients3, chorer_work k, live_ok, runSched_exec .start h1, noWrapB_iff.1 b1, b2⟩

/-- The case of a sweep, by the theorem. -/
example : ∃ ds, ds.map Did.who = [0, 0, 2, 0] ∧ NoLostUpdateLive ds ∧ OneWinnerLive ds := by
  obtain ⟨s', a1, a2, a3, a4, a5, a6, a7, a8, a9, a10, a11, a12, _⟩ := live_cases .sweep (by decide)
  obtain ⟨_, _, h3⟩ := Mix.live_served a1 a2 (by decide) a3 a4 (by intro k it hk; cases hk) a5 a6 a7 a8 a9 a10 a11
  obtain ⟨ds, _, _, _, g1, _, _, g2, _⟩ := h3 a12
  obtain ⟨g3, g4⟩ := g2 (by intro k x hx; cases hx)
  exact ⟨ds, g1, g3, g4⟩

/-- The memcache client stores 41; then the shard of the key is saved; then the client asks for the token, the RESP client counts, and the other shards are saved. -/
def sched4 : List Nat := List.replicate 5 0 ++ List.replicate 5 2 ++ List.replicate 5 0 ++ List.replicate 6 1 ++ List.replicate 15 2

/-- What is saved: `k` with 41. -/
def saved4 : Nat → List (Bytes × Spec.Item)
  | 0 => [([107], ⟨[52, 49], 0, 5, 2⟩)]
  | _ => []

/-- The file. -/
def savedFile4 : Bytes := (fileOf idCodec saveClk (10 ^ 10) saved4 [1, 0, 3, 2]).getD []

/-- The file is loaded at 800. -/
def loads4 : List (Spec.StoreArgs × Int) := loadStores idCodec (fun _ => 800) (10 ^ 10 + 2000) (readFile savedFile4).1

/-- The first process. -/
def ran4 : Option (List Bool × List Nat) :=
  (runSched (Mix.liveServer ctx4 4 kind [] Wire.Example.sys clock addr) sched4
    (Conc.start (Mix.liveStart kind [] Wire.Example.sys clock wire1 saver) (newCache ctx4)) []).map fun x =>
  ([noWrapB 4 x.1.mem, decide (sentTo x.1 0 = some sent1), decide (sentTo x.1 1 = some [58, 52, 50, 13, 10]), decide ((shownBy x.1 2).map Prod.fst = saveOrd.map (fun i => ⟨.show, i, saveClk i⟩)),
    decide ((shownBy x.1 2).map Prod.snd = saveOrd.map saved4)], x.2)

/-- The new process, in which the memcache client stores `x` with its token, and the RESP client looks. -/
def after4 : Option (List Bool × List Bytes × List Nat) :=
  match Cache.run Cache.Example.ctx 2 (loads4.map storeCall) (newCache Cache.Example.ctx) with
  | .val q2 =>
    (runSched (Mix.server Cache.Example.ctx 2 kind [] Wire.Example.sys clock addr) (List.replicate 5 1 ++ List.replicate 5 0)
      (Conc.start (fun t => (t, Mix.opened (kind t) [] Wire.Example.sys (clock t) (wire2 t))) q2.1) []).map fun x2 =>
    ([noWrapB 2 q2.1, noWrapB 2 x2.1.mem], [(x2.1.loc 0).2.sent, (x2.1.loc 1).2.sent], x2.2)
  | _ => none

/-- All hypotheses of `live_restart_partial`: the RESP client was told 42, but after the restart it gets 41. -/
theorem live_restart_case : ∃ s' shs2 rs2 s2, Mix.Clients [] kind asks1 wire1 wire1 ∧ (∀ t l, saver t = some l → ∀ x ∈ l, x.shard < 4 ∧ 0 ≤ x.now) ∧
    Conc.Exec (Mix.liveServer ctx4 4 kind [] Wire.Example.sys clock addr) (Mix.liveStart kind [] Wire.Example.sys clock wire1 saver) (newCache ctx4) s' [0, 2, 0, 1, 2, 2, 2] ∧ NoWrap 4 s'.mem ∧
    sentTo s' 1 = some [58, 52, 50, 13, 10] ∧
    (∀ i < 4, 0 < saveClk i ∧ IsI64 (saveClk i) ∧ 0 ≤ saveClk i + 10 ^ 10 ∧ saveClk i + 10 ^ 10 < 2 ^ 63) ∧
    (∀ i < 4, ∃ t w, s'.loc t = .inr w ∧ (⟨.show, i, saveClk i⟩, saved4 i) ∈ w.shown) ∧
    fileOf idCodec saveClk (10 ^ 10) saved4 [1, 0, 3, 2] = some savedFile4 ∧ (∀ i < 4, ∀ x ∈ saved4 i, Save.Fits x ∧ x.2.expires + 10 ^ 10 < 2 ^ 63) ∧
    (∀ i < 4, ∀ d, blockData (saveClk i) (saveClk i + 10 ^ 10) (saved4 i) = some d → d.length ≤ lz4Max) ∧
    (∀ i < 4, ∀ x ∈ saved4 i, x.2.expires + 10 ^ 10 - (10 ^ 10 + 2000) < 2 ^ 63) ∧ (∀ i < 4, ∀ x ∈ saved4 i, x.2.expires ≠ 0 → x.2.expires + 10 ^ 10 ≠ 800 + (10 ^ 10 + 2000)) ∧
    loads4.Pairwise (fun a b => a.2 ≤ b.2) ∧ Cache.run Cache.Example.ctx 2 (loads4.map storeCall) (newCache Cache.Example.ctx) = .val (shs2, rs2) ∧ NoWrap 2 shs2 ∧
    (∀ i < 4, saveClk i + 10 ^ 10 ≤ 900 + (10 ^ 10 + 2000)) ∧ (∀ t i, 900 ≤ (clock t i).now) ∧ Mix.Clients [] kind asks2 wire2 wire2 ∧
    Conc.Exec (Mix.server Cache.Example.ctx 2 kind [] Wire.Example.sys clock addr) (fun t => (t, Mix.opened (kind t) [] Wire.Example.sys (clock t) (wire2 t))) shs2 s2 [1, 0] ∧ NoWrap 2 s2.mem ∧
    (s2.loc 0).2.sent = [83, 84, 79, 82, 69, 68, 13, 10] ∧ (s2.loc 1).2.sent = [36, 50, 13, 10, 52, 49, 13, 10] := by
  have ha : ran4 = some ([true, true, true, true, true], [0, 2, 0, 1, 2, 2, 2]) := by decide +kernel
  unfold ran4 at ha
  rw [Option.map_eq_some_iff] at ha
  obtain ⟨⟨s', h⟩, h1, ha⟩ := ha
  simp only [Prod.mk.injEq, List.cons.injEq, decide_eq_true_eq, and_true] at ha
  obtain ⟨⟨c1, c2, c3, c4, c5⟩, rfl⟩ := ha
  have hb : after4 = some ([true, true], [[83, 84, 79, 82, 69, 68, 13, 10], [36, 50, 13, 10, 52, 49, 13, 10]], [1, 0]) := by decide +kernel
  unfold after4 at hb
  split at hb
  swap
  · cases hb
  rename_i q2 hq2
  rw [Option.map_eq_some_iff] at hb
  obtain ⟨⟨s2, h'⟩, g2, hb⟩ := hb
  simp only [Prod.mk.injEq, List.cons.injEq, and_true] at hb
  obtain ⟨⟨b5, b6⟩, ⟨b9, b10⟩, rfl⟩ := hb
  obtain ⟨q2, qr2⟩ := q2
  have hw : ∃ w, s'.loc 2 = .inr w ∧ w.shown = saveOrd.map fun i => (⟨.show, i, saveClk i⟩, saved4 i) := by
    unfold shownBy at c4 c5
    split at c4
    · rename_i w hw
      rw [hw] at c5
      refine ⟨w, hw, ?_⟩
      have e := List.zip_of_prod c4 c5
      rw [e, List.zip_map']
    · simp [saveOrd] at c4
  obtain ⟨w, hw1, hw2⟩ := hw
  have hsaved : ∀ i < 4, ∀ x ∈ saved4 i, x = ([107], ⟨[52, 49], 0, 5, 2⟩) := by
    intro i _ x hx
    rcases i with _ | i
    · simpa [saved4] using hx
    · simp [saved4] at hx
  refine ⟨s', q2, qr2, s2, clients1, saver_work, runSched_exec .start h1, noWrapB_iff.1 c1, c3, ?_, ?_, ?_, ?_, ?_, ?_, ?_, by decide +kernel, hq2, noWrapB_iff.1 b5, ?_, ?_, clients2,
    runSched_exec .start g2, noWrapB_iff.1 b6, b9, b10⟩
  · intro i hi; unfold saveClk IsI64; omega
  · intro i hi
    refine ⟨2, w, hw1, ?_⟩
    rw [hw2]
    refine List.mem_map.2 ⟨i, ?_, rfl⟩
    unfold saveOrd
    simp
    omega
  · unfold savedFile4
    have : (fileOf idCodec saveClk (10 ^ 10) saved4 [1, 0, 3, 2]).isSome = true := by decide +kernel
    obtain ⟨x, hx⟩ := Option.isSome_iff_exists.1 this
    rw [hx]; rfl
  · intro i hi x hx
    rw [hsaved i hi x hx]; simp [Save.Fits]
  · have : ∀ i < 4, ((blockData (saveClk i) (saveClk i + 10 ^ 10) (saved4 i)).all fun d => decide (d.length ≤ lz4Max)) = true := by decide +kernel
    intro i hi d hd
    have := this i hi
    rw [hd] at this
    simpa using this
  · intro i hi x hx
    rw [hsaved i hi x hx]; simp
  · intro i hi x hx
    rw [hsaved i hi x hx]; simp
  · intro i hi; unfold saveClk; omega
  · intro t i; show (900 : Int) ≤ if t = 0 then 1000 else 900; split <;> decide

/-- The case above, by the theorem. -/
example : ∃ ds m m1, ds.map Did.who = [0, 2, 0, 1, 2, 2, 2] ∧ (∃ rs ps m', LiveStory Wire.Example.sys.version clock asks1 (shardIdx ctx4 4) (McWire.ofState (shardIdx ctx4 4) ⟨fun _ => none, fun _ => 1⟩) ds rs ps m') ∧
    Restarted (10 ^ 10 - (10 ^ 10 + 2000)) 900 m m1 := by
  obtain ⟨s', shs2, rs2, s2, a1, a2, a3, a4, _, a6, a7, a8, a9, a10, a11, a12, a13, a14, a15, a16, a17, a18, a19, a20, _⟩ := live_restart_case
  obtain ⟨_, ds, rs, ps, m', e1, _, e2, _, M, _, _, m1, _, _, _, _, e3, _⟩ := Mix.live_restart_partial (c := ctx4) (n := 4) ctx4_valid rfl (by decide) (allInv_new ctx4_valid 4) (R_new ctx4 4 0)
    (by intro k it hk; cases hk) (by decide) fine late a1 a2 live_ok a3 a4 idCodec_good (word := [1, 0, 3, 2]) (by decide) a6 a7 a8 a9 a10
    (c' := Cache.Example.ctx) (n' := 2) ctx4_valid rfl (by decide) (lt := fun _ => 800) (δ' := 10 ^ 10 + 2000) (fun _ => by unfold IsI64; norm_num) a11 (fun i hi x hx h0 _ => a12 i hi x hx h0)
    (l := loads4) (List.Perm.refl _) a13 a14 a15 (now1 := 900) (fun _ => by norm_num) a16 (by decide) fine a17 a18 addr_ok2 a19 a20
  exact ⟨ds, _, m1, e1, ⟨rs, ps, m', e2⟩, e3⟩

end Verif.Mix.Example
