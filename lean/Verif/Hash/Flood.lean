import Mathlib.Tactic.Common
import Verif.Hash.Props
import Verif.Cache.Collide

/-!
C118: 256 keys, the same for every seed, of which the cache loses the last.
-/

namespace Verif.Hash
open Verif.Map Verif.Cache

/-- All lists of `n` choices. -/
def choices : Nat → List (List Bool)
  | 0 => [[]]
  | n + 1 => (choices n).flatMap fun l => [false :: l, true :: l]

/-- 256 keys of 128 bytes. -/
def keys : List Bytes := (choices 8).map key

theorem choices_length {n : Nat} {l : List Bool} (h : l ∈ choices n) : l.length = n := by
  induction n generalizing l with
  | zero => rw [choices, List.mem_singleton] at h; rw [h]; rfl
  | succ n ih =>
    rw [choices, List.mem_flatMap] at h
    obtain ⟨a, ha, hl⟩ := h
    have := ih ha
    simp only [List.mem_cons, List.not_mem_nil, or_false] at hl
    rcases hl with rfl | rfl <;> simp [this]

theorem keys_nodup : keys.Nodup := by
  have h : (choices 8).Nodup := by decide +kernel
  exact List.Nodup.map (fun _ _ e => key_inj e) h

/-- The first 255 of them. -/
def most : List Bytes := keys.dropLast

/-- The last one. -/
def last : Bytes := key (List.replicate 8 true)

theorem keys_split : keys = most ++ [last] := by decide +kernel

theorem hash_keys (seed : BitVec 64) {k : Bytes} (hk : k ∈ keys) : hashOf seed k = hashOf seed last := by
  obtain ⟨bs, hb, rfl⟩ := List.mem_map.1 hk
  exact congrArg BitVec.toNat (same_hash seed (by rw [choices_length hb]; rfl))

/-- **C118 is false.**  There are 255 keys and one more, which do not depend on the seed, such that for every
seed, load factor and number of shards a program that stores each of them once is told that each was inserted,
and then does not find the last one. -/
theorem known_keys_lose_an_entry : ∃ (ks : List Bytes) (k : Bytes), (ks ++ [k]).Nodup ∧ ks.length = 255 ∧
    ∀ (seed : BitVec 64) (c : Ctx) (_ : c.Valid) (_ : c.H = hashOf seed) (n : Nat) (_ : 0 < n) (now : Int) (v : Bytes),
      ∃ shs, Cache.run c n ((ks ++ [k]).map (plainPut now v) ++ [plainGet now k]) (newCache c) =
        .val (shs, List.replicate 256 ⟨.inserted, []⟩ ++ [⟨.notfound, []⟩]) := by
  refine ⟨most, last, keys_split ▸ keys_nodup, by decide +kernel, ?_⟩
  intro seed c hv hH n hn now v
  refine colliding_lose hv now v (keys_split ▸ keys_nodup) (by decide +kernel) (h := c.hash24 last) (i := shardIdx c n last) (shardIdx_lt c hn last) ?_
  intro k hk
  rw [← keys_split] at hk
  unfold Ctx.hash24 shardIdx
  rw [hH, hash_keys seed hk]
  exact ⟨rfl, rfl⟩

/-- The hypotheses hold for the default load factor, a random seed and the default number of shards. -/
example : ∃ c : Ctx, c.Valid ∧ c.H = hashOf 0x9e3779b97f4a7c15 ∧ (0 : Nat) < 4096 :=
  ⟨⟨true, false, false, true, 75, hashOf 0x9e3779b97f4a7c15⟩, ⟨(by decide : 55 ≤ 75), (by decide : 75 ≤ 95)⟩, rfl, by decide⟩

end Verif.Hash
