import Verif.Save.Model
import Verif.Num.Props

/-!
Reading back what was written.
-/

namespace Verif.Save

open Verif.Num Verif.Crc
open Verif.Cache (Spec.Item Spec.StoreArgs)

/-- A codec that meets the LZ4 contract: no compression. -/
def idCodec : Lz4 := ⟨fun b => b, fun src cap => if src.length ≤ cap ∧ cap < 2 ^ 31 then some src else none⟩

theorem idCodec_good : idCodec.Good where
  roundtrip := by intro b cap _ h1 h2; simp [idCodec, h1, h2]
  small := by intro b cap _ h1; simp only [idCodec]; rw [if_neg]; omega
  large := by intro src cap h _; simp only [idCodec]; rw [if_neg]; omega
  size := by intro b _; simp only [idCodec]; omega

theorem readU_write (x : Nat) (h : x < 2 ^ 64) (rest : Bytes) : readU (varintWrite x ++ rest) = some (x, rest) := by
  unfold readU
  rw [varint_roundtrip x h rest]
  have hl := (varint_length x h).1
  simp only []
  rw [if_neg (by omega)]
  simp

theorem readBytes_write (k : Bytes) (h : k.length < 2 ^ 64) (rest : Bytes) :
    readBytes (varintWrite k.length ++ k ++ rest) = some (k, rest) := by
  unfold readBytes
  rw [List.append_assoc, readU_write _ h]
  simp

/-- Entries that the format can hold. -/
def Fits (x : Bytes × Spec.Item) : Prop :=
  x.1.length < 2 ^ 64 ∧ x.2.value.length < 2 ^ 64 ∧ x.2.flags < 2 ^ 32 ∧ x.2.cas < 2 ^ 64 ∧ x.2.expires < 2 ^ 63

/-- Remaining lifetime written to the file. -/
def fileTtl (now : Int) (it : Spec.Item) : Nat := if it.expires > 0 then (it.expires - now).toNat else 0

def fileEnt (now : Int) (x : Bytes × Spec.Item) : FileEnt := ⟨x.1, x.2.value, fileTtl now x.2, x.2.flags, x.2.cas⟩

theorem readEntry_save {now : Int} (hn : 0 ≤ now) {x : Bytes × Spec.Item} (hf : Fits x) {b : Bytes} (hb : saveEntry now x = some b) (rest : Bytes) :
    readEntry (b ++ rest) = some (fileEnt now x, rest) := by
  obtain ⟨h1, h2, h3, h4, h5⟩ := hf
  have key : ∀ ttl : Nat, ttl < 2 ^ 63 →
      readEntry (([0] ++ varintWrite x.1.length ++ x.1 ++ varintWrite x.2.value.length ++ x.2.value) ++ varintWrite ttl ++
        (varintWrite x.2.flags ++ varintWrite x.2.cas) ++ rest) = some (⟨x.1, x.2.value, ttl, x.2.flags, x.2.cas⟩, rest) := by
    intro ttl ht
    have : ([0] ++ varintWrite x.1.length ++ x.1 ++ varintWrite x.2.value.length ++ x.2.value) ++ varintWrite ttl ++
        (varintWrite x.2.flags ++ varintWrite x.2.cas) ++ rest =
        0 :: (varintWrite x.1.length ++ x.1 ++ (varintWrite x.2.value.length ++ x.2.value ++
          (varintWrite ttl ++ (varintWrite x.2.flags ++ (varintWrite x.2.cas ++ rest))))) := by simp
    rw [this]
    unfold readEntry
    simp only []
    rw [if_neg (by simp), readBytes_write _ h1]
    simp only [Option.bind_some]
    rw [readBytes_write _ h2]
    simp only [Option.bind_some]
    rw [readU_write _ (by omega)]
    simp only [Option.bind_some]
    rw [if_neg (by omega), readU_write _ (by omega)]
    simp only [Option.bind_some]
    rw [if_neg (by omega), readU_write _ h4]
    rfl
  unfold saveEntry at hb
  simp only [] at hb
  unfold fileEnt fileTtl
  split at hb
  · rename_i he
    split at hb
    · simp only [Option.some.injEq] at hb
      subst hb
      rw [if_pos he]
      exact key _ (by omega)
    · simp at hb
  · rename_i he
    simp only [Option.some.injEq] at hb
    subst hb
    rw [if_neg he]
    exact key 0 (by decide)

theorem saveEntry_ne_nil {now : Int} {x : Bytes × Spec.Item} {b : Bytes} (hb : saveEntry now x = some b) : b ≠ [] := by
  unfold saveEntry at hb
  simp only [] at hb
  split at hb
  · split at hb
    · simp only [Option.some.injEq] at hb
      subst hb; simp
    · simp at hb
  · simp only [Option.some.injEq] at hb
    subst hb; simp

theorem readEntries_save {now : Int} (hn : 0 ≤ now) (ut un : Int) {l : List (Bytes × Spec.Item)} (hf : ∀ x ∈ l, Fits x) {b : Bytes}
    (hb : saveEntries now l = some b) (fuel : Nat) (hfu : b.length ≤ fuel) :
    readEntries ut un fuel b = ((l.filterMap fun x => entryStore ut un (fileEnt now x)), true) := by
  induction l generalizing b fuel with
  | nil =>
    simp only [saveEntries, Option.some.injEq] at hb
    subst hb
    cases fuel <;> simp [readEntries]
  | cons x l ih =>
    unfold saveEntries at hb
    obtain ⟨a, ha, hb⟩ := Option.bind_eq_some_iff.1 hb
    obtain ⟨b', hb', rfl⟩ := Option.map_eq_some_iff.1 hb
    have hne := saveEntry_ne_nil ha
    have hlen : 0 < a.length := List.length_pos_iff.2 hne
    rw [List.length_append] at hfu
    cases fuel with
    | zero => omega
    | succ fuel =>
      unfold readEntries
      rw [if_neg (by simp [hne]), readEntry_save hn (hf x (by simp)) ha]
      simp only []
      rw [ih (fun y hy => hf y (by simp [hy])) hb' fuel (by omega)]
      simp only [List.filterMap_cons]
      cases entryStore ut un (fileEnt now x) <;> rfl

/-- A block loads to the stores of its entries. -/
theorem loadBlock_save {z : Lz4} (hz : z.Good) {now unix un : Int} (hn : 0 ≤ now) (hu0 : 0 ≤ unix) (hu : unix < 2 ^ 63)
    {l : List (Bytes × Spec.Item)} (hf : ∀ x ∈ l, Fits x) {d : Bytes} (hd : blockData now unix l = some d) (hsz : d.length ≤ lz4Max) :
    loadBlock z un (z.compress d) d.length = ((l.filterMap fun x => entryStore unix un (fileEnt now x)), true) := by
  unfold loadBlock
  rw [hz.roundtrip d d.length hsz (Nat.le_refl _) (by unfold lz4Max at hsz; omega)]
  simp only [ne_eq, not_true_eq_false, if_false]
  unfold blockData at hd
  obtain ⟨b, hb, rfl⟩ := Option.map_eq_some_iff.1 hd
  rw [readU_write _ (by omega)]
  simp only []
  rw [if_neg (by omega), readEntries_save hn _ _ hf hb _ (Nat.le_refl _)]
  rw [show ((unix.toNat : Nat) : Int) = unix by omega]

theorem readLE_append {n : Nat} {a b : Bytes} {x : Nat} (h : readLE n a = some x) : readLE n (a ++ b) = some x := by
  induction n generalizing a x with
  | zero => simpa [readLE] using h
  | succ n ih =>
    cases a with
    | nil => simp [readLE] at h
    | cons c a =>
      simp only [readLE, List.cons_append] at h ⊢
      obtain ⟨y, hy, rfl⟩ := Option.map_eq_some_iff.1 h
      rw [ih hy]; rfl

/-- A block at the start of a file is read back, whatever follows. -/
theorem readBlocks_encode {z : Lz4} (hz : z.Good) {d : Bytes} (hsz : d.length ≤ lz4Max) (rest : Bytes) (fuel : Nat) :
    readBlocks (fuel + 1) (encodeBlock z d ++ rest) =
      (((z.compress d, d.length) :: (readBlocks fuel rest).1), (readBlocks fuel rest).2) := by
  have hc := hz.size d hsz
  have hc32 : (z.compress d).length < 2 ^ 32 := by unfold lz4Max at hsz; omega
  have hd32 : d.length < 2 ^ 32 := by unfold lz4Max at hsz; omega
  have hcrc : (crc32 (z.compress d)).toNat < 2 ^ 32 := (crc32 (z.compress d)).isLt
  generalize hcd : z.compress d = c at *
  have hE : encodeBlock z d ++ rest = tag ++ (writeLE 4 (crc32 c).toNat ++ (writeLE 4 d.length ++ (writeLE 4 c.length ++ (c ++ rest)))) := by
    unfold encodeBlock
    simp [hcd]
  rw [hE]
  have hl : ∀ x, (writeLE 4 x).length = 4 := fun x => writeLE_length 4 x
  have htl : tag.length = 4 := rfl
  have d4 : (tag ++ (writeLE 4 (crc32 c).toNat ++ (writeLE 4 d.length ++ (writeLE 4 c.length ++ (c ++ rest))))).drop 4 =
      writeLE 4 (crc32 c).toNat ++ (writeLE 4 d.length ++ (writeLE 4 c.length ++ (c ++ rest))) := List.drop_left' htl
  have d8 : (tag ++ (writeLE 4 (crc32 c).toNat ++ (writeLE 4 d.length ++ (writeLE 4 c.length ++ (c ++ rest))))).drop 8 =
      writeLE 4 d.length ++ (writeLE 4 c.length ++ (c ++ rest)) := by
    rw [show 8 = 4 + 4 from rfl, ← List.drop_drop, d4]; exact List.drop_left' (hl _)
  have d12 : (tag ++ (writeLE 4 (crc32 c).toNat ++ (writeLE 4 d.length ++ (writeLE 4 c.length ++ (c ++ rest))))).drop 12 =
      writeLE 4 c.length ++ (c ++ rest) := by
    rw [show 12 = 8 + 4 from rfl, ← List.drop_drop, d8]; exact List.drop_left' (hl _)
  have d16 : (tag ++ (writeLE 4 (crc32 c).toNat ++ (writeLE 4 d.length ++ (writeLE 4 c.length ++ (c ++ rest))))).drop 16 =
      c ++ rest := by
    rw [show 16 = 12 + 4 from rfl, ← List.drop_drop, d12]; exact List.drop_left' (hl _)
  have t4 : (tag ++ (writeLE 4 (crc32 c).toNat ++ (writeLE 4 d.length ++ (writeLE 4 c.length ++ (c ++ rest))))).take 4 = tag :=
    List.take_left' htl
  rw [readBlocks]
  rw [if_neg (by simp [tag]), if_neg (by simp only [List.length_append, hl, htl]; omega), t4, if_neg (by simp), d4, d8, d12, d16]
  rw [(le_roundtrip 4 (crc32 c).toNat _ (by omega)).2, (le_roundtrip 4 d.length _ (by omega)).2,
    (le_roundtrip 4 c.length _ (by omega)).2]
  simp

theorem encodeBlock_length (z : Lz4) (d : Bytes) : (encodeBlock z d).length = 16 + (z.compress d).length := by
  unfold encodeBlock
  simp [writeLE_length, tag]; omega

/-- A file of blocks is read back. -/
theorem readFile_encode {z : Lz4} (hz : z.Good) {ds : List Bytes} (hsz : ∀ d ∈ ds, d.length ≤ lz4Max) (fuel : Nat)
    (hfu : (ds.flatMap (encodeBlock z)).length ≤ fuel) :
    readBlocks fuel (ds.flatMap (encodeBlock z)) = (ds.map fun d => (z.compress d, d.length), true) := by
  induction ds generalizing fuel with
  | nil => cases fuel <;> simp [readBlocks]
  | cons d ds ih =>
    rw [List.flatMap_cons, List.length_append, encodeBlock_length] at hfu
    cases fuel with
    | zero => omega
    | succ fuel =>
      rw [List.flatMap_cons, readBlocks_encode hz (hsz d (by simp)), ih (fun x hx => hsz x (by simp [hx])) fuel (by omega)]
      simp

end Verif.Save
