import Mathlib.Tactic.Common
import Verif.Cache.Alloc
import Verif.Cache.Props

/-!
C126: storing over a key that is there, while the system has no memory for a larger table.
-/

namespace Verif.Cache

open Verif.Num Verif.Map Verif.Shard Function

/-- A plain store: no conditions, no low memory mode, and nobody to ask about the old entry. -/
def Plain (o : StoreOpts) : Prop := o.nx = false ∧ o.casop = false ∧ o.lowmem = false ∧ o.entry = none

/-- **C126** (`_partial`: only if the shard has not come to its growth limit; otherwise it is false, `overwrite_refused`).  A plain store over a key that is visible
replaces it, also if the system has no memory for a table: the new entry is there, the others are as before. -/
theorem overwrite_without_table_memory_partial {c : Ctx} (hv : c.Valid) {n : Nat} (hn : 0 < n) {mem : Nat → Mem} {now : Int} {key val : Bytes} {o : StoreOpts} {shs : Shards}
    (hA : AllInv c n shs) {req : Int} (hreq : reqExpires o now = .val req) (ho : Plain o) (hmem : (mem (shardIdx c n key)).ent = true)
    (hroom : (shs (shardIdx c n key)).map.count < (shs (shardIdx c n key)).map.growat)
    {p : PS} (hp : SRep (shs (shardIdx c n key)) p) {old : Ent} (hlive : p.live now key = some old) :
    (∃ r q, exec c n mem now (.store key val o) shs = .val r ∧ ((r.shs (shardIdx c n key)).map.ovf = false → r.status = .replaced ∧ SRep (r.shs (shardIdx c n key)) q ∧
      (∃ e, q.f key = some e ∧ e.value = val) ∧ ∀ k, k ≠ key → q.f k = p.f k) ∧ ∀ i, i ≠ shardIdx c n key → r.shs i = shs i) ∨
    exec c n mem now (.store key val o) shs = .abort true := by
  obtain ⟨o1, o2, o3, o4⟩ := ho
  have hsn : storeNomem c (mem (shardIdx c n key)) o (shs (shardIdx c n key)) = false := by
    unfold storeNomem
    rw [o3, decide_eq_false (by omega)]
    rfl
  rcases storeOp_spec hv (mem (shardIdx c n key)) now key val o (hA _ (shardIdx_lt c hn key)) hreq hmem with ⟨r, h1, _, _, h2⟩ | h1
  · left
    obtain ⟨q0, hq0⟩ : ∃ q0 : PR, r.sh.map.ovf = false → SRep r.sh q0.ps ∧ r.status = q0.status ∧ PStore c now key val o req p q0 := by
      by_cases hov : r.sh.map.ovf = false
      · obtain ⟨q, g1, g2, _, _, g3⟩ := (h2 hov).2 p hp
        rw [hsn] at g3
        exact ⟨q, fun _ => ⟨g1, g2, g3⟩⟩
      · exact ⟨⟨p, .found, [], []⟩, fun h => absurd h hov⟩
    refine ⟨⟨update shs (shardIdx c n key) r.sh, r.status, r.evs, r.seen⟩, q0.ps, ?_, fun hov => ?_, fun i hi => by simp only [update_of_ne hi]⟩
    · unfold exec onKey
      simp only [h1, Out.bind]
    · simp only [update_self] at hov ⊢
      obtain ⟨g1, g2, g3⟩ := hq0 hov
      unfold PStore at g3
      have e1 : putBack c o old = false := by unfold putBack; rw [o2, o1]; rfl
      have e2 : refuses o.entry old = false := by rw [o4]; rfl
      simp only [hlive, e1, e2, Bool.false_eq_true, if_false] at g3
      rw [g3] at g1 g2 ⊢
      exact ⟨g2, g1, ⟨_, update_self .., rfl⟩, fun k hk => update_of_ne hk ..⟩
  · right
    unfold exec onKey
    simp only [h1, Out.bind]

/-- **C126, negation.**  In a shard at its growth limit every store is refused if there is no memory for a table of twice the size, also that over a key that is there, for
which no larger table is needed; and also `nx` and `xx`, for which nothing would have to be stored.  Nothing is changed but the counter of tokens. -/
theorem overwrite_refused {c : Ctx} (hv : c.Valid) {n : Nat} (hn : 0 < n) {mem : Nat → Mem} {now : Int} {key val : Bytes} {o : StoreOpts} {shs : Shards}
    (hA : AllInv c n shs) {req : Int} (hreq : reqExpires o now = .val req) (hmem : (mem (shardIdx c n key)).ent = true) (htbl : (mem (shardIdx c n key)).tbl = false)
    (hfull : (shs (shardIdx c n key)).map.growat ≤ (shs (shardIdx c n key)).map.count) :
    exec c n mem now (.store key val o) shs =
      .val ⟨update shs (shardIdx c n key) ⟨(shs (shardIdx c n key)).cas + 1, (shs (shardIdx c n key)).map⟩, .nomem, [], []⟩ := by
  obtain ⟨ex, hex, _⟩ := storeExpires_spec hv now key o (hA _ (shardIdx_lt c hn key)) hreq
  unfold exec onKey
  simp only []
  unfold storeOp
  rw [hex]
  simp only [Out.bind, hmem, Bool.not_true, Bool.false_eq_true, if_false]
  cases o.lowmem && c.noevict with
  | true => rfl
  | false =>
    unfold mapInsert resize
    simp [hfull, htbl, ofLoop]

namespace Example

/-- One shard; the hash of a key is its first byte. -/
def ctxOne : Ctx := ⟨true, false, false, true, 75, fun k => (k.headD 0).toNat⟩

theorem ctxOne_valid : ctxOne.Valid := ⟨by decide, by decide⟩

/-- A plain store without a deadline. -/
def plain : StoreOpts := ⟨0, 0, 0, 0, false, false, false, false, false, none⟩

/-- `m` keys are stored, one after the other, with memory for all. -/
def filled : Nat → Out Shards
  | 0 => .val (newCache ctxOne)
  | m + 1 => (filled m).bind fun shs => (exec ctxOne 1 okMem 100 (.store [UInt8.ofNat m] [118] plain) shs).bind fun r => .val r.shs

theorem filled_reach : ∀ (m : Nat) (shs : Shards), filled m = .val shs → Reach ctxOne 1 shs
  | 0, _, h => by cases h; exact .new
  | m + 1, _, h => by
    unfold filled at h
    obtain ⟨shs0, h0, h⟩ := out_bind_val h
    obtain ⟨r, hr, h⟩ := out_bind_val h
    cases h
    refine .call (filled_reach m shs0 h0) ?_ hr
    exact ⟨⟨0, rfl⟩, fun _ => rfl⟩

/-- No memory for tables. -/
def noTable : Nat → Mem := fun _ => ⟨true, false, true⟩

/-- What becomes of a store of `w` under the first key, and the value then: whether it is done, whether it is refused, whether the shard was full, whether a counter has wrapped, the value before and after. -/
def over (m : Nat) : Option (List Bool × List (List Bytes)) :=
  match filled m with
  | .val shs =>
    let look (shs : Shards) : List Bytes := match exec ctxOne 1 okMem 101 (.load [0] ⟨false, some fun _ => none⟩) shs with | .val q => q.seen.map (·.value) | _ => []
    match exec ctxOne 1 noTable 101 (.store [0] [119] plain) shs with
    | .val r => some ([decide (r.status = .replaced), decide (r.status = .nomem), decide ((shs 0).map.growat ≤ (shs 0).map.count), (r.shs 0).map.ovf], [look shs, look r.shs])
    | _ => none
  | _ => none

/-- Hypotheses of both theorems.  With 47 keys the store is done; with 48 keys, which are in 64 buckets, a key that is there cannot be stored over. -/
example : over 47 = some ([true, false, false, false], [[[118]], [[119]]]) ∧ over 48 = some ([false, true, true, false], [[[118]], [[118]]]) := by decide +kernel

example : Plain plain ∧ reqExpires plain 101 = .val 0 ∧ (noTable 0).ent = true ∧ (noTable 0).tbl = false ∧
    (∀ m shs, filled m = .val shs → AllInv ctxOne 1 shs) ∧ ∃ shs, filled 48 = .val shs ∧ (shs 0).map.growat ≤ (shs 0).map.count := by
  refine ⟨⟨rfl, rfl, rfl, rfl⟩, rfl, rfl, rfl, fun m shs h => (filled_reach m shs h).allInv ctxOne_valid (by decide), ?_⟩
  have h : (match filled 48 with | .val shs => decide ((shs 0).map.growat ≤ (shs 0).map.count) | _ => false) = true := by decide +kernel
  split at h
  · rename_i shs hs
    exact ⟨shs, hs, by simpa using h⟩
  · cases h

/-- The case of the first theorem: one key is there. -/
example : ∃ shs p old, filled 1 = .val shs ∧ (shs 0).map.count < (shs 0).map.growat ∧ SRep (shs 0) p ∧ p.live 101 [0] = some old := by
  have h : (match filled 1 with
    | .val shs => decide ((shs 0).map.count < (shs 0).map.growat) && !(shs 0).map.ovf && (match exec ctxOne 1 okMem 101 (.load [0] ⟨false, some fun _ => none⟩) shs with
        | .val q => decide (q.status = .found) | _ => false)
    | _ => false) = true := by decide +kernel
  split at h
  swap
  · cases h
  rename_i shs hs
  simp only [Bool.and_eq_true, decide_eq_true_eq, Bool.not_eq_true'] at h
  obtain ⟨⟨h1, h2⟩, h3⟩ := h
  have hi : Inv ctxOne (shs 0).map := (filled_reach 1 shs hs).allInv ctxOne_valid (by decide) 0 (by decide)
  obtain ⟨f, hf⟩ := rep_exists (hi.nodup h2)
  have hp : SRep (shs 0) ⟨f, (shs 0).cas⟩ := ⟨hf, rfl⟩
  obtain ⟨r, g1, _, _, g2⟩ := loadOp_spec ctxOne_valid ⟨true, true, true⟩ 101 [0] ⟨false, some fun _ => none⟩ hi
  have g3 := (g2 h2 _ hp).2.1
  have e : exec ctxOne 1 okMem 101 (.load [0] ⟨false, some fun _ => none⟩) shs = .val ⟨update shs 0 r.sh, r.status, r.evs, r.seen⟩ := by
    show onKey ctxOne 1 [0] _ shs = _
    unfold onKey
    have : shardIdx ctxOne 1 [0] = 0 := by decide
    simp only [this]
    show (loadOp ctxOne ⟨true, true, true⟩ 101 [0] ⟨false, some fun _ => none⟩ (shs 0)).bind _ = _
    rw [g1]
    rfl
  rw [e] at h3
  simp only [] at h3
  rw [decide_eq_true_eq, g3] at h3
  cases hl : PS.live ⟨f, (shs 0).cas⟩ 101 [0] with
  | some old => exact ⟨shs, _, old, hs, h1, hp, hl⟩
  | none =>
    exfalso
    unfold PS.live at hl
    unfold pLoad at h3
    cases hk : f [0] with
    | none => simp [hk] at h3
    | some e =>
      have : e.alive 101 = false := by simpa [hk, Option.filter] using hl
      simp [hk, this] at h3

end Example

end Verif.Cache
