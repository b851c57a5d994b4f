import Mathlib.Tactic.Common
import Verif.Many.Restart
import Verif.Many.Examples

/-!
C103: a concrete case.
-/

namespace Verif.Many.Example

open Verif.Num Verif.Resp Verif.Cmd Verif.Cache Verif.Shard Verif.Map Verif.Wire Verif.Save Function

/-- `*5 $3 SET $1 k $1 1 $2 EX $1 9`. -/
def setEx : Bytes := [42, 53, 13, 10, 36, 51, 13, 10, 83, 69, 84, 13, 10, 36, 49, 13, 10, 107, 13, 10, 36, 49, 13, 10, 49, 13, 10, 36, 50, 13, 10, 69, 88, 13, 10, 36, 49, 13, 10, 57, 13, 10]

/-- `*2 $3 GET $1 k`, for any one-byte key. -/
def get (k : UInt8) : Bytes := [42, 50, 13, 10, 36, 51, 13, 10, 71, 69, 84, 13, 10, 36, 49, 13, 10, k, 13, 10]

/-- `*2 $4 PTTL $1 k`. -/
def pttl : Bytes := [42, 50, 13, 10, 36, 52, 13, 10, 80, 84, 84, 76, 13, 10, 36, 49, 13, 10, 107, 13, 10]

/-- One client sets `k` for nine seconds, another `2` for ever. -/
theorem before_clients : Clients (two [.set [107] [49] .always (.span (9 * 1000000000))] [.set [2] [49] .always .ever]) (two [setEx] [set 2])
    (two [[[83, 69, 84], [107], [49], [69, 88], [57]]] [[[83, 69, 84], [2], [49]]]) (two [setEx] [set 2]) := by
  have sp : ∀ w low : Bytes, low.map lower = low → w.map lower = low → Spells w low := fun w low h h' => (spells_iff w low h).2 h'
  refine ⟨forall_two (.cons (.set (cs := []) (ls := [[69, 88], [57]]) (sp _ _ (by decide) (by decide)) .always
      (.ex (sp _ _ (by decide) (by decide)) ⟨by decide, ⟨[], [], [57], rfl, by decide, by decide, by decide, Or.inl ⟨Or.inl rfl, by decide⟩⟩, by unfold IsI64; decide⟩ (by decide)) (Or.inl rfl)) .nil)
    (.cons (.set (cs := []) (ls := []) (sp _ _ (by decide) (by decide)) .always .ever (Or.inl rfl)) .nil),
    forall_two (.cons ⟨[53], _, num (by decide), by decide, .cons (arg (t := [51]) (by decide) (by decide)) (.cons (arg (t := [49]) (by decide) (by decide))
      (.cons (arg (t := [49]) (by decide) (by decide)) (.cons (arg (t := [50]) (by decide) (by decide)) (.cons (arg (t := [49]) (by decide) (by decide)) .nil)))), rfl⟩ .nil)
    (.cons ⟨[51], _, num (by decide), by decide, .cons (arg (t := [51]) (by decide) (by decide)) (.cons (arg (t := [49]) (by decide) (by decide))
      (.cons (arg (t := [49]) (by decide) (by decide)) .nil)), rfl⟩ .nil), fun _ => List.prefix_refl _⟩

/-- Later, the first client looks for `2` and the second asks how long `k` stays. -/
theorem after_clients : Clients (two [.get [2]] [.ttl true [107]]) (two [get 2] [pttl]) (two [[[71, 69, 84], [2]]] [[[80, 84, 84, 76], [107]]]) (two [get 2] [pttl]) := by
  have sp : ∀ w low : Bytes, low.map lower = low → w.map lower = low → Spells w low := fun w low h h' => (spells_iff w low h).2 h'
  refine ⟨forall_two (.cons (.get (sp _ _ (by decide) (by decide))) .nil) (.cons (.ttl (sp _ _ (by decide) (by decide))) .nil),
    forall_two (.cons ⟨[50], _, num (by decide), by decide, .cons (arg (t := [51]) (by decide) (by decide)) (.cons (arg (t := [49]) (by decide) (by decide)) .nil), rfl⟩ .nil)
    (.cons ⟨[50], _, num (by decide), by decide, .cons (arg (t := [52]) (by decide) (by decide)) (.cons (arg (t := [49]) (by decide) (by decide)) .nil), rfl⟩ .nil),
    fun _ => List.prefix_refl _⟩

/-- Shard `i` is saved at 2000 + `i`. -/
def saveClk (i : Nat) : Int := 2000 + i

/-- The order in which the shards are visited. -/
def saveOrd : List Nat := [0, 1, 2, 3]

/-- What is saved: `k` until 9000001000, and `2` for ever. -/
def saved : Nat → List (Bytes × Spec.Item)
  | 0 => [([107], ⟨[49], 9000001000, 0, 2⟩)]
  | 1 => [([2], ⟨[49], 0, 0, 2⟩)]
  | _ => []

/-- The file; shard 1 was written first. -/
def savedFile : Bytes := (fileOf idCodec saveClk (10 ^ 10) saved [1, 0, 3, 2]).getD []

/-- The clock of the new process is 2000 further behind the wall clock; the file is loaded at 800. -/
def loads : List (Spec.StoreArgs × Int) := loadStores idCodec (fun _ => 800) (10 ^ 10 + 2000) (readFile savedFile).1

/-- The idle clients. -/
theorem sched_idle {c : Ctx} {n : Nat} {a b : List Bytes} {mem : Shards} {sched : List Nat} {s : Conc.State (Nat × Loc) Sh} {h : List Nat} (hs : ∀ t ∈ sched, t < 2)
    (h1 : runSched (server c n [] Wire.Example.sys clock addr) sched (Conc.start (fun t => (t, opened [] Wire.Example.sys (clock t) (two a b t))) mem) [] = some (s, h))
    (g0 : (match (s.loc 0).2.job with | .val none => true | _ => false) = true) (g1 : (match (s.loc 1).2.job with | .val none => true | _ => false) = true) :
    ∀ t, (s.loc t).2.job = .val none := by
  intro t
  by_cases e0 : t = 0
  · subst e0
    split at g0
    · assumption
    · cases g0
  · by_cases e1 : t = 1
    · subst e1
      split at g1
      · assumption
      · cases g1
    · obtain ⟨a1, _⟩ := runSched_other h1 (u := t) (fun hm => absurd (hs t hm) (by omega))
      rw [a1]
      unfold Conc.start two
      simp only [if_neg e0, if_neg e1]
      rfl

/-- Both processes; whether all checks hold, and what the clients were sent. -/
def both : Option (List Bool × List Bytes × List Nat) :=
  (runSched (server ctx4 4 [] Wire.Example.sys clock addr) [0, 1, 0, 1, 0, 1, 0, 1, 0, 1]
    (Conc.start (fun t => (t, opened [] Wire.Example.sys (clock t) (two [setEx] [set 2] t))) (newCache ctx4)) []).bind fun x =>
  match run ctx4 4 (saveOrd.map fun i => saveCall i (saveClk i)) x.1.mem with
  | .val q =>
    match run Cache.Example.ctx 2 (loads.map storeCall) (newCache Cache.Example.ctx) with
    | .val q2 =>
      (runSched (server Cache.Example.ctx 2 [] Wire.Example.sys clock addr) [1, 0, 1, 0, 1, 0, 1, 0, 0, 1]
        (Conc.start (fun t => (t, opened [] Wire.Example.sys (clock t) (two [get 2] [pttl] t))) q2.1) []).map fun x2 =>
      ([(match (x.1.loc 0).2.job with | .val none => true | _ => false), (match (x.1.loc 1).2.job with | .val none => true | _ => false), noWrapB 4 q.1,
        decide (q.2.map (·.shown) = saveOrd.map saved), noWrapB 2 q2.1, noWrapB 2 x2.1.mem,
        (match (x2.1.loc 0).2.job with | .val none => true | _ => false), (match (x2.1.loc 1).2.job with | .val none => true | _ => false)],
        [(x.1.loc 0).2.sent, (x.1.loc 1).2.sent, (x2.1.loc 0).2.sent, (x2.1.loc 1).2.sent], x.2 ++ x2.2)
    | _ => none
  | _ => none

/-- All hypotheses of `restart_served_partial`, for `both`: afterwards `2` is there, and `k` stays for 8999 of its 9000 milliseconds. -/
example : ∃ s' shs1 rs1 shs2 rs2 s2, ctx4.Valid ∧ AllInv ctx4 4 (newCache ctx4) ∧ R ctx4 4 0 (newCache ctx4) ⟨fun _ => none, fun _ => 1⟩ ∧ (∀ t i, Fine (clock t i)) ∧
    (∀ t i, 0 ≤ (clock t i).now) ∧ (server ctx4 4 [] Wire.Example.sys clock addr).Ok ∧
    Conc.Exec (server ctx4 4 [] Wire.Example.sys clock addr) (fun t => (t, opened [] Wire.Example.sys (clock t) (two [setEx] [set 2] t))) (newCache ctx4) s' [0, 1] ∧
    (∀ t, (s'.loc t).2.job = .val none) ∧
    idCodec.Good ∧ saveOrd.Perm (List.range 4) ∧ [1, 0, 3, 2].Perm (List.range 4) ∧ saveOrd.Pairwise (fun i j => saveClk i ≤ saveClk j) ∧ (∀ i < 4, 0 ≤ saveClk i) ∧
    (∀ i < 4, 0 < saveClk i ∧ IsI64 (saveClk i) ∧ 0 ≤ saveClk i + 10 ^ 10 ∧ saveClk i + 10 ^ 10 < 2 ^ 63) ∧
    run ctx4 4 (saveOrd.map fun i => saveCall i (saveClk i)) s'.mem = .val (shs1, rs1) ∧ NoWrap 4 shs1 ∧ rs1.map (·.shown) = saveOrd.map saved ∧
    fileOf idCodec saveClk (10 ^ 10) saved [1, 0, 3, 2] = some savedFile ∧ (∀ i < 4, ∀ x ∈ saved i, Save.Fits x ∧ x.2.expires + 10 ^ 10 < 2 ^ 63) ∧
    (∀ i < 4, ∀ d, blockData (saveClk i) (saveClk i + 10 ^ 10) (saved i) = some d → d.length ≤ lz4Max) ∧
    (∀ i < 4, ∀ x ∈ saved i, x.2.expires + 10 ^ 10 - (10 ^ 10 + 2000) < 2 ^ 63) ∧ (∀ i < 4, ∀ x ∈ saved i, x.2.expires ≠ 0 → x.2.expires + 10 ^ 10 ≠ 800 + (10 ^ 10 + 2000)) ∧
    loads.Pairwise (fun a b => a.2 ≤ b.2) ∧ run Cache.Example.ctx 2 (loads.map storeCall) (newCache Cache.Example.ctx) = .val (shs2, rs2) ∧ NoWrap 2 shs2 ∧
    (∀ i < 4, saveClk i + 10 ^ 10 ≤ 900 + (10 ^ 10 + 2000)) ∧ (∀ t i, 900 ≤ (clock t i).now) ∧
    Conc.Exec (server Cache.Example.ctx 2 [] Wire.Example.sys clock addr) (fun t => (t, opened [] Wire.Example.sys (clock t) (two [get 2] [pttl] t))) shs2 s2 [1, 0] ∧ NoWrap 2 s2.mem ∧
    (s2.loc 0).2.sent = [36, 49, 13, 10, 49, 13, 10] ∧ (s2.loc 1).2.sent = [58, 56, 57, 57, 57, 13, 10] := by
  have hb : both = some ([true, true, true, true, true, true, true, true],
    [[43, 79, 75, 13, 10], [43, 79, 75, 13, 10], [36, 49, 13, 10, 49, 13, 10], [58, 56, 57, 57, 57, 13, 10]], [0, 1, 1, 0]) := by decide +kernel
  unfold both at hb
  rw [Option.bind_eq_some_iff] at hb
  obtain ⟨⟨s', h⟩, h1, hb⟩ := hb
  simp only [] at hb
  split at hb
  swap
  · cases hb
  rename_i q hq
  split at hb
  swap
  · cases hb
  rename_i q2 hq2
  rw [Option.map_eq_some_iff] at hb
  obtain ⟨⟨s2, h'⟩, h2, hb⟩ := hb
  simp only [Prod.mk.injEq, List.cons.injEq, and_true] at hb
  obtain ⟨⟨b1, b2, b3, b4, b5, b6, b7, b8⟩, ⟨_, _, b9, b10⟩, b11⟩ := hb
  obtain ⟨q, qr⟩ := q
  obtain ⟨q2, qr2⟩ := q2
  have hh : h = [0, 1] ∧ h' = [1, 0] := by
    have : (runSched (server ctx4 4 [] Wire.Example.sys clock addr) [0, 1, 0, 1, 0, 1, 0, 1, 0, 1]
      (Conc.start (fun t => (t, opened [] Wire.Example.sys (clock t) (two [setEx] [set 2] t))) (newCache ctx4)) []).map (·.2) = some [0, 1] := by decide +kernel
    rw [h1] at this
    simp only [Option.map_some, Option.some.injEq] at this
    subst this
    exact ⟨rfl, by simpa using b11⟩
  obtain ⟨rfl, rfl⟩ := hh
  have hsaved : ∀ i < 4, ∀ x ∈ saved i, x = ([107], ⟨[49], 9000001000, 0, 2⟩) ∨ x = ([2], ⟨[49], 0, 0, 2⟩) := by
    intro i _ x hx
    rcases i with _ | _ | i
    · exact Or.inl (by simpa [saved] using hx)
    · exact Or.inr (by simpa [saved] using hx)
    · simp [saved] at hx
  refine ⟨s', q, qr, q2, qr2, s2, ctx4_valid, allInv_new ctx4_valid 4, R_new ctx4 4 0, fine, late, addr_ok, runSched_exec .start h1, sched_idle (by decide) h1 b1 b2,
    idCodec_good, by decide, by decide, by decide, ?_, ?_, hq, noWrapB_iff.1 b3, of_decide_eq_true b4, ?_, ?_, ?_, ?_, ?_, by decide +kernel, hq2, noWrapB_iff.1 b5, ?_, ?_,
    runSched_exec .start h2, noWrapB_iff.1 b6, b9, b10⟩
  · intro i hi; unfold saveClk; omega
  · intro i hi; unfold saveClk IsI64; omega
  · unfold savedFile
    have : (fileOf idCodec saveClk (10 ^ 10) saved [1, 0, 3, 2]).isSome = true := by decide +kernel
    obtain ⟨x, hx⟩ := Option.isSome_iff_exists.1 this
    rw [hx]; rfl
  · intro i hi x hx
    rcases hsaved i hi x hx with rfl | rfl <;> simp [Save.Fits]
  · have : ∀ i < 4, ((blockData (saveClk i) (saveClk i + 10 ^ 10) (saved i)).all fun d => decide (d.length ≤ lz4Max)) = true := by decide +kernel
    intro i hi d hd
    have := this i hi
    rw [hd] at this
    simpa using this
  · intro i hi x hx
    rcases hsaved i hi x hx with rfl | rfl <;> simp
  · intro i hi x hx
    rcases hsaved i hi x hx with rfl | rfl <;> simp
  · intro i hi; unfold saveClk; omega
  · intro t i; unfold clock; split <;> decide

end Verif.Many.Example
