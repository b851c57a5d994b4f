import Verif.Shard.AbsStore
import Verif.Shard.AbsScan
import Verif.Map.Small

/-!
Operations on a shard of at most 254 entries: no probe distance wraps, so no assertion fails.
-/

namespace Verif.Shard

open Verif.Map Function

/-- No probe distance has wrapped. -/
def Good {α : Type} (tbl : α → Tbl) : Out α → Prop
  | .val r => (tbl r).ovf = false
  | .abort o => o = false
  | .ub => True
  | .hang => True

theorem loadOp_good {c : Ctx} (hv : c.Valid) (mem : Mem) (now : Int) (key : Bytes) (o : LoadOpts) {s : Sh}
    (h : Inv c s.map) (ho : s.map.ovf = false) : Good (fun r : Res => r.sh.map) (loadOp c mem now key o s) := by
  obtain ⟨r, hr, _, ho', _⟩ := loadOp_spec hv mem now key o h
  rw [hr]
  show r.sh.map.ovf = false
  rw [ho', ho]

theorem deleteOp_good {c : Ctx} (hv : c.Valid) (mem : Mem) (now : Int) (key : Bytes) (cb : Option (Ent → Bool))
    {s : Sh} (h : Inv c s.map) (ho : s.map.ovf = false) (hs : s.map.count ≤ 255) :
    Good (fun r : Res => r.sh.map) (deleteOp c mem now key cb s) := by
  obtain ⟨m1, r, hr, hi1, hov1, _, _, hsome⟩ := mapDelete_spec hv h key
  have ho1 := hov1.trans ho
  unfold deleteOp
  rw [hr]
  simp only [ofLoop, Out.bind]
  cases r with
  | none => exact ho
  | some e =>
    obtain ⟨_, hc1, _, _, _, _⟩ := hsome e rfl
    obtain ⟨m2, hm2, _⟩ := tryShrink_spec hv hi1 mem.tbl2
    have ho2 := tryShrink_small hv hi1 ho1 (by omega) hm2
    simp only []
    split
    · rw [hm2]; exact ho2
    · split
      · obtain ⟨m2, r2, hr2, hi2, _, _, _, _⟩ := mapInsert_spec (e := e) (ok := mem.tbl) hv hi1
        have ho2 := mapInsert_small hv hi1 ho1 (by omega) hr2
        rw [hr2]
        simp only [assert]
        cases r2 with
        | none => exact ho2
        | some old =>
          by_cases he : old.isNone = true
          · simp only [he, if_true]; exact ho2
          · simp only [he, if_false]; exact ho2
      · rw [hm2]; exact ho2

theorem evictEntry_good {c : Ctx} (hv : c.Valid) {m : Tbl} (h : Inv c m) (ho : m.ovf = false) (e : Ent) :
    Good id (evictEntry c m e) := by
  obtain ⟨m1, r, hr, _, hov1, _⟩ := mapDelete_spec hv h e.key
  unfold evictEntry
  rw [hr]
  simp only [ofLoop, Out.bind, assert]
  by_cases hre : (r == some e) = true
  · rw [if_pos hre]; exact hov1.trans ho
  · rw [if_neg hre]; exact hov1.trans ho

theorem autoEvict_good {c : Ctx} (hv : c.Valid) {m : Tbl} (h : Inv c m) (ho : m.ovf = false) (hash : Nat) (now : Int) :
    Good (fun r : Tbl × List Ev => r.1) (autoEvict c m hash now) := by
  have key : ∀ e evs, Good (fun r : Tbl × List Ev => r.1) ((evictEntry c m e).bind fun m' => .val (m', evs)) := by
    intro e evs
    have := evictEntry_good hv h ho e
    cases hx : evictEntry c m e <;> rw [hx] at this <;> simp only [Out.bind] <;> exact this
  unfold autoEvict
  split
  · exact key _ _
  · exact key _ _
  · exact key _ _
  · exact ho

theorem doPutBack_good {c : Ctx} (hv : c.Valid) (mem : Mem) {s : Sh} {m : Tbl} (hi : Inv c m) (ho : m.ovf = false)
    (hs : m.count ≤ 254) (old entry : Ent) (evs : List Ev) (st : Status) (seen : List Ent) :
    Good (fun r : Res => r.sh.map) (doPutBack c mem s m old entry evs st seen) := by
  obtain ⟨m3, r3, hr3, hi3, _, _, _, _⟩ := mapInsert_spec (e := old) (ok := mem.tbl2) hv hi
  have ho3 := mapInsert_small hv hi ho hs hr3
  unfold doPutBack
  rw [hr3]
  simp only [ofLoop, Out.bind, assert]
  cases r3 with
  | none => exact ho3
  | some e =>
    simp only []
    by_cases he : (e == some entry) = true
    · rw [if_pos he]; exact ho3
    · rw [if_neg he]; exact ho3

theorem storeOp_good {c : Ctx} (hv : c.Valid) (mem : Mem) (now : Int) (key val : Bytes) (o : StoreOpts) {s : Sh}
    (h : Inv c s.map) {req : Int} (hreq : reqExpires o now = .val req) (ho : s.map.ovf = false)
    (hs : s.map.count ≤ 254) (hs' : s.map.count ≤ 253 ∨ ∃ x ∈ s.map.cont, x.key = key) :
    Good (fun r : Res => r.sh.map) (storeOp c mem now key val o s) := by
  obtain ⟨ex, hex, _⟩ := storeExpires_spec hv now key o h hreq
  unfold storeOp
  rw [hex]
  simp only [Out.bind]
  split
  · trivial
  · split
    · exact ho
    · set entry := mkEnt c key val ex o.flags (s.cas + 1) now with hentry
      obtain ⟨m1, r1, hr1, hi1, _, _, hsame1, hs1⟩ := mapInsert_spec (e := entry) (ok := mem.tbl) hv h
      have ho1 := mapInsert_small hv h ho hs hr1
      rw [hr1]
      simp only [ofLoop]
      cases r1 with
      | none => exact ho1
      | some old0 =>
        obtain ⟨hcnt, _, _, _, heff⟩ := hs1 old0 rfl
        have hc1 : m1.count ≤ 254 := by
          cases old0 with
          | some x => rw [if_neg (by simp)] at hcnt; omega
          | none =>
            rw [if_pos rfl] at hcnt
            rcases hs' with h2 | ⟨x, hx, hxk⟩
            · omega
            · exact absurd hxk ((heff ho1).1 x hx)
        have hnoold : ∀ evs, Good (fun r : Res => r.sh.map) (if o.xx || o.casop then
              (ofLoop (mapDelete c m1 key)).bind fun (m2, r) =>
                (assert m2 (r == some entry)).bind fun _ =>
                  .val ⟨{ s with cas := s.cas + 1, map := m2 }, .notfound, evs, []⟩
            else if o.lowmem && decide (m1.count > s.map.count) then
              (autoEvict c m1 (c.hash24 key) now).bind fun (m2, ev2) =>
                .val ⟨{ s with cas := s.cas + 1, map := m2 }, .inserted, evs ++ ev2 ++ [.inserted entry], []⟩
            else .val ⟨{ s with cas := s.cas + 1, map := m1 }, .inserted, evs ++ [.inserted entry], []⟩ : Out Res) := by
          intro evs
          split
          · obtain ⟨m2, r, hr, _, hov2, _⟩ := mapDelete_spec hv hi1 key
            rw [hr]
            simp only [ofLoop, Out.bind, assert]
            by_cases hre : (r == some entry) = true
            · rw [if_pos hre]; exact hov2.trans ho1
            · rw [if_neg hre]; exact hov2.trans ho1
          · split
            · have := autoEvict_good hv hi1 ho1 (c.hash24 key) now
              cases hx : autoEvict c m1 (c.hash24 key) now <;> rw [hx] at this <;> simp only [Out.bind] <;> exact this
            · exact ho1
        cases old0 with
        | none =>
          simp only [if_false, Bool.false_eq_true]
          exact hnoold []
        | some old =>
          by_cases ha : old.alive now = true
          · simp only [ha, Bool.not_true, if_false, Bool.false_eq_true]
            split
            · exact doPutBack_good hv mem hi1 ho1 hc1 _ _ _ _ _
            · split
              · exact doPutBack_good hv mem hi1 ho1 hc1 _ _ _ _ _
              · exact ho1
          · have ha2 : old.alive now = false := by simpa using ha
            simp only [ha2, Bool.not_false, if_true]
            exact hnoold [.expired old]

theorem scan_count {c : Ctx} (hv : c.Valid) (now : Int) (act : List Ent → Ent → Act) {s : Sh} (h : Inv c s.map)
    (ho : s.map.ovf = false) {st' : Scan}
    (hr : scanLoop now act (scanFuel s.map) 0 ⟨s.map, [], [], false, 0⟩ = .val st') :
    Inv c st'.map ∧ st'.map.ovf = false ∧ st'.map.count ≤ s.map.count := by
  obtain ⟨st2, h1, h2, h3, _, _, _, _, h4⟩ := scanLoop_spec hv now act (scanFuel s.map) 0 ⟨s.map, [], [], false, 0⟩ h rfl
    (by unfold scanFuel; simp) (fun _ => False) (by intro j hj; omega)
  rw [hr] at h1
  simp only [Out.val.injEq] at h1
  subst h1
  obtain ⟨evs, seen, hst, _⟩ := h4 ho
  refine ⟨h2, h3.trans ho, ?_⟩
  have h5 := congrArg Multiset.card hst.cont
  simp only [Multiset.card_add] at h5
  have h6 := h2.cnt (h3.trans ho)
  have h7 := h.cnt ho
  omega

theorem iterOp_good {c : Ctx} (hv : c.Valid) (mem : Mem) (now : Int) (cb : Option (List Ent → Ent → Act)) {s : Sh}
    (h : Inv c s.map) (ho : s.map.ovf = false) (hs : s.map.count ≤ 255) :
    Good (fun r : Res => r.sh.map) (iterOp c mem now cb s) := by
  unfold iterOp
  cases hx : scanLoop now (cb.getD fun _ _ => .cont) (scanFuel s.map) 0 ⟨s.map, [], [], false, 0⟩ with
  | val st' =>
    obtain ⟨h1, h2, h3⟩ := scan_count hv now _ h ho hx
    obtain ⟨m2, hm2, _⟩ := tryShrink_spec hv h1 mem.tbl
    simp only [Out.bind, hm2, ofLoop]
    exact tryShrink_small hv h1 h2 (by omega) hm2
  | _ => obtain ⟨r, hr, _⟩ := iterOp_spec hv mem now cb h; unfold iterOp at hr; rw [hx] at hr; simp [Out.bind] at hr

theorem sweepOp_good {c : Ctx} (hv : c.Valid) (mem : Mem) (now : Int) {s : Sh}
    (h : Inv c s.map) (ho : s.map.ovf = false) (hs : s.map.count ≤ 255) :
    Good (fun r : Res × Nat × Nat => r.1.sh.map) (sweepOp c mem now s) := by
  unfold sweepOp
  cases hx : scanLoop now (fun _ _ => .cont) (scanFuel s.map) 0 ⟨s.map, [], [], false, 0⟩ with
  | val st' =>
    obtain ⟨h1, h2, h3⟩ := scan_count hv now _ h ho hx
    obtain ⟨m2, hm2, _⟩ := tryShrink_spec hv h1 mem.tbl
    simp only [Out.bind, hm2, ofLoop]
    exact tryShrink_small hv h1 h2 (by omega) hm2
  | _ => obtain ⟨r, _, _, hr, _⟩ := sweepOp_spec hv mem now h; unfold sweepOp at hr; rw [hx] at hr; simp [Out.bind] at hr

theorem clearOp_good {c : Ctx} (mem : Mem) (now : Int) {s : Sh} (ho : s.map.ovf = false) :
    Good (fun r : Res => r.sh.map) (clearOp c mem now s) := by
  unfold clearOp
  simp only []
  split
  · exact ho
  · trivial

end Verif.Shard
