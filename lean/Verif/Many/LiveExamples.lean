import Mathlib.Tactic.Common
import Verif.Many.Live
import Verif.Many.RestartExamples

/-!
C104, C105: concrete cases; a file that is not the store at any one moment.
-/

namespace Verif.Many

open Verif.Num Verif.Resp Verif.Cmd Verif.Cache Verif.Shard Verif.Map Verif.Wire Verif.Save Function

namespace Example

/-- Thread 2 shows all four shards. -/
def saver (t : Nat) : Option (List Chore) := if t = 2 then some (saveOrd.map fun i => ⟨.show, i, saveClk i⟩) else none

/-- The second client sets `a`, and then `2`. -/
def writes : Nat → List Ask := two [] [.set [97] [49] .always .ever, .set [2] [49] .always .ever]

theorem writes_clients : Clients writes (two [] [set 97, set 2]) (two [] [[[83, 69, 84], [97], [49]], [[83, 69, 84], [2], [49]]]) (two [] [set 97, set 2]) := by
  have sp : ∀ w low : Bytes, low.map lower = low → w.map lower = low → Spells w low := fun w low h h' => (spells_iff w low h).2 h'
  have hset : ∀ k, Words (.set [k] [49] .always .ever) [[83, 69, 84], [k], [49]] := fun k =>
    .set (sp _ _ (by decide) (by decide)) .always .ever (Or.inl rfl)
  have henc : ∀ k, Enc [[83, 69, 84], [k], [49]] (set k) := fun k =>
    ⟨[51], _, num ⟨by decide, by decide, by decide, rfl⟩, Nat.le_of_ble_eq_true rfl, .cons (arg (t := [51]) (by decide) (by decide)) (.cons (arg (t := [49]) ⟨by decide, by decide, by decide, rfl⟩ (Nat.le_of_ble_eq_true rfl))
      (.cons (arg (t := [49]) (by decide) (by decide)) .nil)), rfl⟩
  exact ⟨forall_two .nil (.cons (hset 97) (.cons (hset 2) .nil)), forall_two .nil (.cons (henc 97) (.cons (henc 2) .nil)), fun _ => List.prefix_refl _⟩

theorem live_ok {c : Ctx} {n : Nat} {pw : Bytes} {y : Sys} {clock : Nat → Nat → Env} : (live c n pw y clock addr).Ok := by
  obtain ⟨h1, h2, h3⟩ := addr_ok (c := c) (n := n) (pw := pw) (y := y) (clock := clock)
  exact ⟨h1, h2, h3⟩

/-- The first shard is saved, then both writes are done, then the other shards are saved. -/
def liveSched : List Nat := List.replicate 5 2 ++ List.replicate 10 1 ++ List.replicate 15 2

/-- What was saved: just `2`. -/
def savedLive : Nat → List (Bytes × Spec.Item)
  | 1 => [([2], ⟨[49], 0, 0, 2⟩)]
  | _ => []

/-- The start. -/
def liveInit : Conc.State ((Nat × Loc) ⊕ Worker) Sh := Conc.start (liveStart [] Wire.Example.sys clock (two [] [set 97, set 2]) saver) (newCache ctx4)

/-- What thread `t` has shown. -/
def shownBy (s : Conc.State ((Nat × Loc) ⊕ Worker) Sh) (t : Nat) : List (Chore × List (Bytes × Spec.Item)) :=
  match s.loc t with
  | .inr w => w.shown
  | .inl _ => []

/-- What client `t` was sent, if it is idle. -/
def sentTo (s : Conc.State ((Nat × Loc) ⊕ Worker) Sh) (t : Nat) : Option Bytes :=
  match s.loc t with
  | .inr _ => none
  | .inl l => match l.2.job with | .val none => some l.2.sent | _ => none

/-- No server that does one thing at a time ever has `2` without having `a`. -/
theorem live_writes {grp : Bytes → Nat} {ev : List (Nat × Option Chore)} {rs ps : Nat → List Reply} {m : Store} {log : List (Nat × Chore × Store)}
    (h : Live clock writes grp (fun _ => none) ev rs ps m log) (hev : ∀ e ∈ ev, ∀ x, e.2 = some x → x.kind = .show) :
    ps = (fun _ => []) ∧ (((rs 1).length = 0 ∧ m = fun _ => none) ∨ ((rs 1).length = 1 ∧ m = update (fun _ => none) [97] (some ⟨[49], none⟩)) ∨
      ((rs 1).length = 2 ∧ m = update (update (fun _ => none) [97] (some ⟨[49], none⟩)) [2] (some ⟨[49], none⟩))) := by
  have hever : ∀ {m : Store} {r : Nat}, ((r = 0 ∧ m = fun _ => none) ∨ (r = 1 ∧ m = update (fun _ => none) [97] (some ⟨[49], none⟩)) ∨
      (r = 2 ∧ m = update (update (fun _ => none) [97] (some ⟨[49], none⟩)) [2] (some ⟨[49], none⟩))) → ∀ k, m k = none ∨ ∃ v, m k = some ⟨v, none⟩ := by
    intro m r h k
    rcases h with ⟨_, rfl⟩ | ⟨_, rfl⟩ | ⟨_, rfl⟩
    · exact Or.inl rfl
    · by_cases h1 : k = [97] <;> simp [update, h1]
    · by_cases h1 : k = [97] <;> by_cases h2 : k = [2] <;> simp [update, h1, h2]
  induction h with
  | none => exact ⟨rfl, Or.inl ⟨rfl, rfl⟩⟩
  | @chore ev rs ps m1 log t x _ ih =>
    obtain ⟨ih1, ih2⟩ := ih fun e he => hev e (by simp [he])
    refine ⟨ih1, ?_⟩
    have hk := hev (t, some x) (by simp) x rfl
    have : choreDone grp x m1 = m1 := by
      funext k
      unfold choreDone
      rw [hk, if_neg (show ¬ Kind.show = Kind.clear by decide)]
      split
      · rcases hever ih2 k with h | ⟨v, h⟩ <;> unfold Store.see <;> rw [h] <;> rfl
      · rfl
    rw [this]
    exact ih2
  | @ask ev rs ps rs' ps' m1 m2 log t _ hn ih =>
    obtain ⟨ih1, ih2⟩ := ih fun e he => hev e (by simp [he])
    subst ih1
    have hask : ∀ a, (writes t)[(rs t).length]? = some a → t = 1 ∧ ∃ k, a = .set k [49] .always .ever := by
      intro a ha
      unfold writes two at ha
      split at ha
      · simp at ha
      · split at ha
        · rename_i h1
          refine ⟨h1, ?_⟩
          have := List.mem_of_getElem? ha
          simp only [List.mem_cons, List.not_mem_nil, or_false] at this
          rcases this with rfl | rfl
          · exact ⟨_, rfl⟩
          · exact ⟨_, rfl⟩
        · simp at ha
    cases hn with
    | @part m1' _ a b r ha hb hlt hdr hsv =>
      obtain ⟨_, k, rfl⟩ := hask a ha
      simp [parts] at hlt
    | @last m1' _ a b r ha hb hlt hdr hsv =>
      obtain ⟨rfl, k, rfl⟩ := hask a ha
      have hm : m1' = m1 := drops_ever hdr (hever ih2)
      subst hm
      simp only [List.length_nil, parts, List.getElem?_cons_zero, Option.some.injEq] at hb
      subst hb
      refine ⟨by funext u; by_cases h : u = 1 <;> simp [update, h], ?_⟩
      rw [update_self]
      cases hsv with
      | setNot hc => exact absurd trivial hc
      | set _ =>
        rcases ih2 with ⟨hl, rfl⟩ | ⟨hl, rfl⟩ | ⟨hl, rfl⟩
        · rw [hl] at ha
          simp [writes, two] at ha
          subst ha
          exact Or.inr (Or.inl ⟨by simp [hl], by simp [Life.upto]⟩)
        · rw [hl] at ha
          simp [writes, two] at ha
          subst ha
          exact Or.inr (Or.inr ⟨by simp [hl], by simp [Life.upto]⟩)
        · rw [hl] at ha
          simp [writes, two] at ha

/-- The execution: what was saved is just `2`, and the client has been told that both writes are done. -/
theorem live_run : ∃ s', Conc.Exec (live ctx4 4 [] Wire.Example.sys clock addr) (liveStart [] Wire.Example.sys clock (two [] [set 97, set 2]) saver) (newCache ctx4) s' [2, 1, 1, 2, 2, 2] ∧
    NoWrap 4 s'.mem ∧ (∃ l, s'.loc 1 = .inl l ∧ l.2.job = .val none ∧ l.2.sent = [43, 79, 75, 13, 10, 43, 79, 75, 13, 10]) ∧
    (∃ w, s'.loc 2 = .inr w ∧ w.shown.map Prod.fst = saveOrd.map (fun i => ⟨.show, i, saveClk i⟩) ∧ w.shown.map Prod.snd = saveOrd.map savedLive) := by
  have hb : ((runSched (live ctx4 4 [] Wire.Example.sys clock addr) liveSched liveInit []).map fun x =>
    ([noWrapB 4 x.1.mem, decide (sentTo x.1 1 = some [43, 79, 75, 13, 10, 43, 79, 75, 13, 10]), decide ((shownBy x.1 2).map Prod.fst = saveOrd.map (fun i => ⟨.show, i, saveClk i⟩)),
      decide ((shownBy x.1 2).map Prod.snd = saveOrd.map savedLive)], x.2)) = some ([true, true, true, true], [2, 1, 1, 2, 2, 2]) := by
    decide +kernel
  rw [Option.map_eq_some_iff] at hb
  obtain ⟨⟨s', h⟩, h1, h2⟩ := hb
  simp only [Prod.mk.injEq, List.cons.injEq, decide_eq_true_eq, and_true] at h2
  obtain ⟨⟨b1, b2, b3, b4⟩, rfl⟩ := h2
  refine ⟨s', runSched_exec .start h1, noWrapB_iff.1 b1, ?_, ?_⟩
  · unfold sentTo at b2
    split at b2
    · cases b2
    · rename_i l hl
      split at b2
      · rename_i hj
        exact ⟨l, hl, hj, by simpa using b2⟩
      · cases b2
  · unfold shownBy at b3 b4
    split at b3
    · rename_i w hw
      rw [hw] at b4
      exact ⟨w, hw, b3, b4⟩
    · simp [saveOrd] at b3

theorem saver_work (t : Nat) (l : List Chore) (h : saver t = some l) : ∀ x ∈ l, x.shard < 4 ∧ 0 ≤ x.now := by
  unfold saver at h
  split at h
  · simp only [Option.some.injEq] at h
    subst h
    decide
  · cases h

/-- **C105, negation.**  A client sets `a`, and then `2`, and is told that both are done; at the same time all shards are saved.  The file has `2`, but not `a`: no server that does
one thing at a time has this store at any moment.  (`save` locks one shard after the other, `/repo/src/save.c:120-135`.  With SIGTERM the process then exits, and what
the client was told to be done is lost, `/repo/src/main.c:310-331`.) -/
theorem save_not_snapshot : ∃ s' w l, Clients writes (two [] [set 97, set 2]) (two [] [[[83, 69, 84], [97], [49]], [[83, 69, 84], [2], [49]]]) (two [] [set 97, set 2]) ∧
    Conc.Exec (live ctx4 4 [] Wire.Example.sys clock addr) (liveStart [] Wire.Example.sys clock (two [] [set 97, set 2]) saver) (newCache ctx4) s' [2, 1, 1, 2, 2, 2] ∧ NoWrap 4 s'.mem ∧
    s'.loc 1 = .inl l ∧ Reads l.2.sent [okay, okay] ∧ s'.loc 2 = .inr w ∧ w.shown.map Prod.fst = saveOrd.map (fun i => ⟨.show, i, saveClk i⟩) ∧ w.shown.map Prod.snd = saveOrd.map savedLive ∧
    ∀ ev rs ps m log, Live clock writes (shardIdx ctx4 4) (fun _ => none) ev rs ps m log → (∀ e ∈ ev, ∀ x, e.2 = some x → x.kind = .show) →
      ¬ ∀ i < 4, ShardShown (shardIdx ctx4 4) ⟨.show, i, saveClk i⟩ m (savedLive i) := by
  obtain ⟨s', h1, h2, ⟨l, h3, h4, h5⟩, w, h6, h7, h8⟩ := live_run
  refine ⟨s', w, l, writes_clients, h1, h2, h3, ?_, h6, h7, h8, fun ev rs ps m log hl hev hc => ?_⟩
  · rw [h5]
    have ho := sends_ok.1
    exact reads_snoc ho (reads_snoc ho reads_nil)
  · have h2 := (hc 1 (by decide) [2] ⟨[49], none⟩).1 ⟨⟨[49], 0, 0, 2⟩, by simp [savedLive], rfl, rfl⟩
    have h0 := hc 0 (by decide) [97] ⟨[49], none⟩
    obtain ⟨_, hm | hm | hm⟩ := live_writes hl hev
    all_goals obtain ⟨_, rfl⟩ := hm
    · simp [Store.see] at h2
    · simp [Store.see, update] at h2
    · obtain ⟨it, hc, _⟩ := h0.2 ⟨by decide, by simp [Store.see, update]⟩
      simp [savedLive] at hc

/-- All hypotheses of `live_served`, for the execution above. -/
example : ∃ s', ctx4.Valid ∧ AllInv ctx4 4 (newCache ctx4) ∧ R ctx4 4 0 (newCache ctx4) ⟨fun _ => none, fun _ => 1⟩ ∧ (∀ t i, Fine (clock t i)) ∧ (∀ t i, 0 ≤ (clock t i).now) ∧
    Clients writes (two [] [set 97, set 2]) (two [] [[[83, 69, 84], [97], [49]], [[83, 69, 84], [2], [49]]]) (two [] [set 97, set 2]) ∧
    (∀ t l, saver t = some l → ∀ x ∈ l, x.shard < 4 ∧ 0 ≤ x.now) ∧ (live ctx4 4 [] Wire.Example.sys clock addr).Ok ∧
    Conc.Exec (live ctx4 4 [] Wire.Example.sys clock addr) (liveStart [] Wire.Example.sys clock (two [] [set 97, set 2]) saver) (newCache ctx4) s' [2, 1, 1, 2, 2, 2] ∧ NoWrap 4 s'.mem := by
  obtain ⟨s', h1, h2, _⟩ := live_run
  exact ⟨s', ctx4_valid, allInv_new ctx4_valid 4, R_new ctx4 4 0, fine, late, writes_clients, saver_work, live_ok, h1, h2⟩

/-- The file. -/
def liveFile : Bytes := (fileOf idCodec saveClk (10 ^ 10) savedLive [1, 0, 3, 2]).getD []

/-- What is loaded. -/
def liveLoads : List (Spec.StoreArgs × Int) := loadStores idCodec (fun _ => 800) (10 ^ 10 + 2000) (readFile liveFile).1

/-- The new process: whether all checks hold, and what the clients were sent, who look for `2` and `a`. -/
def liveAfter : Option (List Bool × List Bytes × List Nat) :=
  match run Cache.Example.ctx 2 (liveLoads.map storeCall) (newCache Cache.Example.ctx) with
  | .val q2 =>
    (runSched (server Cache.Example.ctx 2 [] Wire.Example.sys clock addr) [1, 0, 1, 0, 1, 0, 1, 0, 0, 1]
      (Conc.start (fun t => (t, opened [] Wire.Example.sys (clock t) (two [get 2] [get 97] t))) q2.1) []).map fun x2 =>
    ([noWrapB 2 q2.1, noWrapB 2 x2.1.mem], [(x2.1.loc 0).2.sent, (x2.1.loc 1).2.sent], x2.2)
  | _ => none

/-- All hypotheses of `live_restart_partial`: after the restart, `2` is there and `a` is not, though the client was told that it had been set. -/
example : ∃ s' shs2 rs2 s2, ctx4.Valid ∧ AllInv ctx4 4 (newCache ctx4) ∧ R ctx4 4 0 (newCache ctx4) ⟨fun _ => none, fun _ => 1⟩ ∧ (∀ t i, Fine (clock t i)) ∧
    (∀ t i, 0 ≤ (clock t i).now) ∧ (∀ t l, saver t = some l → ∀ x ∈ l, x.shard < 4 ∧ 0 ≤ x.now) ∧ (live ctx4 4 [] Wire.Example.sys clock addr).Ok ∧
    Conc.Exec (live ctx4 4 [] Wire.Example.sys clock addr) (liveStart [] Wire.Example.sys clock (two [] [set 97, set 2]) saver) (newCache ctx4) s' [2, 1, 1, 2, 2, 2] ∧ NoWrap 4 s'.mem ∧
    idCodec.Good ∧ [1, 0, 3, 2].Perm (List.range 4) ∧
    (∀ i < 4, 0 < saveClk i ∧ IsI64 (saveClk i) ∧ 0 ≤ saveClk i + 10 ^ 10 ∧ saveClk i + 10 ^ 10 < 2 ^ 63) ∧
    (∀ i < 4, ∃ t w, s'.loc t = .inr w ∧ (⟨.show, i, saveClk i⟩, savedLive i) ∈ w.shown) ∧
    fileOf idCodec saveClk (10 ^ 10) savedLive [1, 0, 3, 2] = some liveFile ∧ (∀ i < 4, ∀ x ∈ savedLive i, Save.Fits x ∧ x.2.expires + 10 ^ 10 < 2 ^ 63) ∧
    (∀ i < 4, ∀ d, blockData (saveClk i) (saveClk i + 10 ^ 10) (savedLive i) = some d → d.length ≤ lz4Max) ∧
    (∀ i < 4, ∀ x ∈ savedLive i, x.2.expires + 10 ^ 10 - (10 ^ 10 + 2000) < 2 ^ 63) ∧ (∀ i < 4, ∀ x ∈ savedLive i, x.2.expires ≠ 0 → x.2.expires + 10 ^ 10 ≠ 800 + (10 ^ 10 + 2000)) ∧
    liveLoads.Pairwise (fun a b => a.2 ≤ b.2) ∧ run Cache.Example.ctx 2 (liveLoads.map storeCall) (newCache Cache.Example.ctx) = .val (shs2, rs2) ∧ NoWrap 2 shs2 ∧
    (∀ i < 4, saveClk i + 10 ^ 10 ≤ 900 + (10 ^ 10 + 2000)) ∧ (∀ t i, 900 ≤ (clock t i).now) ∧
    Conc.Exec (server Cache.Example.ctx 2 [] Wire.Example.sys clock addr) (fun t => (t, opened [] Wire.Example.sys (clock t) (two [get 2] [get 97] t))) shs2 s2 [1, 0] ∧ NoWrap 2 s2.mem ∧
    (s2.loc 0).2.sent = [36, 49, 13, 10, 49, 13, 10] ∧ (s2.loc 1).2.sent = [36, 45, 49, 13, 10] := by
  obtain ⟨s', h1, h2, _, w, h6, h7, h8⟩ := live_run
  have hb : liveAfter = some ([true, true], [[36, 49, 13, 10, 49, 13, 10], [36, 45, 49, 13, 10]], [1, 0]) := by decide +kernel
  unfold liveAfter at hb
  split at hb
  swap
  · cases hb
  rename_i q2 hq2
  rw [Option.map_eq_some_iff] at hb
  obtain ⟨⟨s2, h'⟩, g2, hb⟩ := hb
  simp only [Prod.mk.injEq, List.cons.injEq, and_true] at hb
  obtain ⟨⟨b5, b6⟩, ⟨b9, b10⟩, rfl⟩ := hb
  obtain ⟨q2, qr2⟩ := q2
  have hsaved : ∀ i < 4, ∀ x ∈ savedLive i, x = ([2], ⟨[49], 0, 0, 2⟩) := by
    intro i _ x hx
    rcases i with _ | _ | i
    · simp [savedLive] at hx
    · simpa [savedLive] using hx
    · simp [savedLive] at hx
  refine ⟨s', q2, qr2, s2, ctx4_valid, allInv_new ctx4_valid 4, R_new ctx4 4 0, fine, late, saver_work, live_ok, h1, h2,
    idCodec_good, by decide, ?_, ?_, ?_, ?_, ?_, ?_, ?_, by decide +kernel, hq2, noWrapB_iff.1 b5, ?_, ?_,
    runSched_exec .start g2, noWrapB_iff.1 b6, b9, b10⟩
  · intro i hi; unfold saveClk IsI64; omega
  · intro i hi
    refine ⟨2, w, h6, ?_⟩
    have : w.shown = saveOrd.map fun i => (⟨.show, i, saveClk i⟩, savedLive i) := by
      have e := List.zip_of_prod h7 h8
      rw [e, List.zip_map']
    rw [this]
    refine List.mem_map.2 ⟨i, ?_, rfl⟩
    unfold saveOrd
    simp
    omega
  · unfold liveFile
    have : (fileOf idCodec saveClk (10 ^ 10) savedLive [1, 0, 3, 2]).isSome = true := by decide +kernel
    obtain ⟨x, hx⟩ := Option.isSome_iff_exists.1 this
    rw [hx]; rfl
  · intro i hi x hx
    rw [hsaved i hi x hx]; simp [Save.Fits]
  · have : ∀ i < 4, ((blockData (saveClk i) (saveClk i + 10 ^ 10) (savedLive i)).all fun d => decide (d.length ≤ lz4Max)) = true := by decide +kernel
    intro i hi d hd
    have := this i hi
    rw [hd] at this
    simpa using this
  · intro i hi x hx
    rw [hsaved i hi x hx]; simp
  · intro i hi x hx
    rw [hsaved i hi x hx]; simp
  · intro i hi; unfold saveClk; omega
  · intro t i; unfold clock; split <;> decide

/-- A flush of shard 0, and a sweep of shard 1 at 1500: `a` is gone, and so is `2`, kept until 1200. -/
example : Live clock (two [] []) (shardIdx ctx4 4) (fun k => if k = [97] then some ⟨[49], none⟩ else if k = [2] then some ⟨[50], some 1200⟩ else none) [(2, some ⟨.clear, 0, 1500⟩), (3, some ⟨.sweep, 1, 1500⟩)]
    (fun _ => []) (fun _ => []) (choreDone (shardIdx ctx4 4) ⟨.sweep, 1, 1500⟩ (choreDone (shardIdx ctx4 4) ⟨.clear, 0, 1500⟩ fun k => if k = [97] then some ⟨[49], none⟩ else if k = [2] then some ⟨[50], some 1200⟩ else none))
    [(2, ⟨.clear, 0, 1500⟩, fun k => if k = [97] then some ⟨[49], none⟩ else if k = [2] then some ⟨[50], some 1200⟩ else none),
      (3, ⟨.sweep, 1, 1500⟩, choreDone (shardIdx ctx4 4) ⟨.clear, 0, 1500⟩ fun k => if k = [97] then some ⟨[49], none⟩ else if k = [2] then some ⟨[50], some 1200⟩ else none)] :=
  .chore (.chore .none)

end Example

end Verif.Many
