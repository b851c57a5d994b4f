import Mathlib.Tactic.Common
import Verif.Cmd.Scan

/-!
C121: SCAN while other keys are stored.
-/

namespace Verif.Cmd
open Verif.Map Verif.Shard Verif.Cache

namespace ScanGrow

/-- The keys 1 and 2 share their place in a table of 64 buckets, and do not in one of 128. -/
def ctx : Ctx := ⟨true, false, false, true, 75, fun k => if k = [1] then 69 else if k = [2] then 5 else (k.headD 0).toNat⟩

/-- `SET k 0`. -/
def set (k : UInt8) : Env × List Bytes := (at_ .resp 100, [setName, [k], [48]])

/-- `GET 2`. -/
def get : Env × List Bytes := (at_ .resp 100, [getName, [2]])

/-- 50 other keys. -/
def more : List (Env × List Bytes) := (List.range 50).map fun i => set (UInt8.ofNat (20 + i))

/-- Two keys are stored, SCAN is asked for the first key, 50 others are stored, and the rest is asked for. -/
def run : Out (List (List W) × Shards × List (List W) × Shards) :=
  (session ctx 1 [set 1, set 2, get] (newCache ctx)).bind fun x => (session ctx 1 (more ++ [get]) x.2).bind fun y => .val (x.1, x.2, y.1, y.2)

end ScanGrow

open ScanGrow in
/-- **C121 is false.**  The keys 1 and 2 are stored.  SCAN with COUNT 1 answers with key 1 and a cursor.  While 50 other keys are stored, and
nothing is deleted, the table grows.  SCAN with the cursor goes on to the end: key 1 is returned a second time and key 2 never, although it was there all
the time. -/
theorem scan_skips_while_growing : ∃ shs shs' keys,
    session ctx 1 [set 1, set 2, get] (newCache ctx) = .val ([[.str [79, 75]], [.str [79, 75]], [.bulk [48]]], shs) ∧
    scanOf 1 100 shs 0 [42] 1 = some ([[1]], 6) ∧
    session ctx 1 (more ++ [get]) shs = .val (List.replicate 50 [.str [79, 75]] ++ [[.bulk [48]]], shs') ∧
    scanOf 1 100 shs' 6 [42] 100 = some (keys, 0) ∧ [1] ∈ keys ∧ [2] ∉ keys := by
  obtain ⟨⟨r1, shs, r2, shs'⟩, hr, h⟩ := Out.of_test (o := ScanGrow.run)
    (p := fun x => x.1 = [[.str [79, 75]], [.str [79, 75]], [.bulk [48]]] ∧ scanOf 1 100 x.2.1 0 [42] 1 = some ([[1]], 6) ∧
      x.2.2.1 = List.replicate 50 [.str [79, 75]] ++ [[.bulk [48]]] ∧
      (scanOf 1 100 x.2.2.2 6 [42] 100).map (fun r => (r.2, decide ([1] ∈ r.1), decide ([2] ∈ r.1))) = some (0, true, false)) (by decide +kernel)
  obtain ⟨x, hx, hr⟩ := out_bind_val hr
  obtain ⟨y, hy, hr⟩ := out_bind_val hr
  simp only [Out.val.injEq, Prod.mk.injEq] at hr
  obtain ⟨rfl, rfl, rfl, rfl⟩ := hr
  obtain ⟨h1, h2, h3, h4⟩ := h
  simp only at h1 h2 h3 h4
  obtain ⟨r, hk, hk'⟩ := Option.map_eq_some_iff.1 h4
  simp only [Prod.mk.injEq, decide_eq_true_eq, decide_eq_false_iff_not] at hk'
  refine ⟨x.2, y.2, r.1, ?_, h2, ?_, ?_, hk'.2.1, hk'.2.2⟩
  · rw [hx, ← h1]
  · rw [hy, ← h3]
  · rw [hk, ← hk'.1]

/-- The table is a legal one. -/
example : ScanGrow.ctx.Valid := ⟨by decide, by decide⟩

end Verif.Cmd
