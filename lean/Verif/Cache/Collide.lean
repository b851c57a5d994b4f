import Verif.Map.Tower
import Verif.Cache.Small
import Mathlib.Data.Fintype.Pigeonhole
import Mathlib.Data.Set.Finite.Basic
import Mathlib.Data.Finite.Prod

/-!
C10 is false of the code: for every hash function there are 256 keys such that storing them loses the
last one.
-/

namespace Verif.Cache

open Verif.Map Verif.Shard Function

/-- A plain store of a key that is not in the table, when the insertion succeeds. -/
theorem storeOp_plain {c : Ctx} {mem : Mem} {now : Int} {key val : Bytes} {s : Sh} {m1 : Tbl} {o : StoreOpts}
    (ho : o = ⟨0, 0, 0, 0, false, false, false, false, false, none⟩) (hm : mem = ⟨true, true, true⟩)
    (hi : mapInsert c s.map (mkEnt c key val 0 0 (s.cas + 1) now) true = some (m1, some none)) :
    ∃ evs, storeOp c mem now key val o s = .val ⟨⟨s.cas + 1, m1⟩, .inserted, evs, []⟩ := by
  subst ho hm
  unfold storeOp
  simp [storeExpires, reqExpires, Out.bind, ofLoop, hi]

/-- Choose 256 keys that agree in shard and in the 24-bit hash. -/
theorem exists_colliding (c : Ctx) {n : Nat} (hn : 0 < n) :
    ∃ ks : List Bytes, ks.Nodup ∧ ks.length = 256 ∧ ∃ h i, i < n ∧ ∀ k ∈ ks, c.hash24 k = h ∧ shardIdx c n k = i := by
  have hlt : ∀ k, c.hash24 k < 2 ^ 24 := by
    intro k
    unfold Ctx.hash24 clipHash
    omega
  let f : Bytes → Fin (2 ^ 24) × Fin n := fun k => (⟨c.hash24 k, hlt k⟩, ⟨shardIdx c n k, shardIdx_lt c hn k⟩)
  obtain ⟨y, hy⟩ := Finite.exists_infinite_fiber f
  have hinf : (f ⁻¹' {y}).Infinite := Set.infinite_coe_iff.1 hy
  obtain ⟨t, ht, hc⟩ := hinf.exists_subset_card_eq 256
  refine ⟨t.toList, t.nodup_toList, by rw [Finset.length_toList, hc], y.1, y.2, y.2.2, ?_⟩
  intro k hk
  have hk' : f k = y := ht (by simpa using hk)
  rw [← hk']
  exact ⟨rfl, rfl⟩

/-- Store `k` with the value `v`, no options, all memory available. -/
def plainPut (now : Int) (v : Bytes) (k : Bytes) : HCall :=
  ⟨.store { key := k, val := v, expires := 0, ttl := 0, cas := 0, flags := 0, keepttl := false, casop := false
            nx := false, xx := false, lowmem := false, ask := none }, now, fun _ => ⟨true, true, true⟩, false⟩

/-- Load `k`. -/
def plainGet (now : Int) (k : Bytes) : HCall :=
  ⟨.load k false (some fun _ => none), now, fun _ => ⟨true, true, true⟩, false⟩

/-- What a plain store does when its insertion succeeds. -/
theorem exec_plainPut {c : Ctx} {n : Nat} {now : Int} {v k : Bytes} {shs : Shards} {m1 : Tbl}
    (hi : mapInsert c (shs (shardIdx c n k)).map (mkEnt c k v 0 0 ((shs (shardIdx c n k)).cas + 1) now) true = some (m1, some none))
    (l : List HCall) :
    run c n (plainPut now v k :: l) shs =
      (run c n l (update shs (shardIdx c n k) ⟨(shs (shardIdx c n k)).cas + 1, m1⟩)).bind fun q =>
        .val (q.1, ⟨.inserted, []⟩ :: q.2) := by
  obtain ⟨evs, he⟩ := storeOp_plain (o := ⟨0, 0, 0, 0, false, false, false, false, false, none⟩) rfl rfl hi
  have hx : exec c n (plainPut now v k).mem (plainPut now v k).now (toOp (plainPut now v k).call) shs =
      .val ⟨update shs (shardIdx c n k) ⟨(shs (shardIdx c n k)).cas + 1, m1⟩, .inserted, evs, []⟩ := by
    show onKey c n k _ shs = _
    unfold onKey
    show Out.bind (storeOp c ⟨true, true, true⟩ now k v ⟨0, 0, 0, 0, false, false, false, false, false, none⟩ (shs (shardIdx c n k))) _ = _
    rw [he]
    rfl
  show Out.bind (exec c n (plainPut now v k).mem (plainPut now v k).now (toOp (plainPut now v k).call) shs) _ = _
  rw [hx]
  rfl

/-- Storing the first 255 keys fills a table with exactly these keys. -/
theorem run_fill {c : Ctx} (hv : c.Valid) {n : Nat} {now : Int} {v : Bytes} {i : Nat} (l : List HCall)
    (ks done : List Bytes) (hnd : (done ++ ks).Nodup) (hlen : (done ++ ks).length ≤ 255)
    (hks : ∀ k ∈ ks, shardIdx c n k = i) (shs : Shards) (h : SK c done (shs i)) (hc : (shs i).map.count = done.length) :
    ∃ shs', SK c (done ++ ks) (shs' i) ∧ (shs' i).map.count = (done ++ ks).length ∧
      run c n (ks.map (plainPut now v) ++ l) shs = (run c n l shs').bind fun q =>
        .val (q.1, List.replicate ks.length ⟨.inserted, []⟩ ++ q.2) := by
  induction ks generalizing done shs with
  | nil =>
    refine ⟨shs, by simpa using h, by simpa using hc, ?_⟩
    simp only [List.map_nil, List.nil_append, List.length_nil, List.replicate_zero]
    cases run c n l shs <;> rfl
  | cons k ks ih =>
    have hki : shardIdx c n k = i := hks k (by simp)
    have hkd : k ∉ done := by
      intro hm
      have := (List.nodup_append.1 hnd).2.2 k hm k (by simp)
      exact this rfl
    have hkc : ∀ x ∈ (shs i).map.cont, x.key ≠ k := by
      intro x hx he
      exact hkd (he ▸ h.keys x hx)
    obtain ⟨m1, r, hr, hi1, _, hnone, _, hsome⟩ := mapInsert_spec (e := mkEnt c k v 0 0 ((shs i).cas + 1) now) (ok := true) hv h.inv
    have hl : done.length + (ks.length + 1) ≤ 255 := by simpa using hlen
    have ho1 := mapInsert_small hv h.inv h.good (by omega) hr
    cases r with
    | none => have := hnone.1 rfl; simp at this
    | some old =>
      obtain ⟨hcnt, _, _, _, heff⟩ := hsome old rfl
      cases old with
      | some x =>
        have := heff ho1
        exact absurd this.2.1 (hkc x this.1)
      | none =>
        have hcont := (heff ho1).2
        rw [if_pos rfl] at hcnt
        obtain ⟨shs', h1, h2, h3⟩ := ih (done ++ [k]) (by simpa using hnd) (by simp; omega) (fun k' hk' => hks k' (by simp [hk']))
          (update shs i ⟨(shs i).cas + 1, m1⟩) (by
            rw [update_self]
            refine ⟨hi1, ho1, ?_⟩
            intro x hx
            show x.key ∈ done ++ [k]
            have hx' : x ∈ m1.cont := hx
            rw [hcont] at hx'
            rcases Multiset.mem_add.1 hx' with hx' | hx'
            · exact List.mem_append.2 (Or.inl (h.keys x hx'))
            · rw [Multiset.mem_singleton.1 hx']
              exact List.mem_append.2 (Or.inr (by simp [mkEnt]))) (by
            rw [update_self]
            simp only [List.length_append, List.length_cons, List.length_nil]
            omega)
        refine ⟨shs', by simpa using h1, by simpa using h2, ?_⟩
        rw [List.map_cons, List.cons_append, exec_plainPut (m1 := m1) (by rw [hki]; exact hr), hki, h3]
        cases run c n l shs' <;> simp [Out.bind, List.replicate_succ]

/-- Of 256 different keys that agree in the shard and in the 24 bits of the hash, each is reported as stored
and the last is not found. -/
theorem colliding_lose {c : Ctx} (hv : c.Valid) {n : Nat} (now : Int) (v : Bytes) {ks : List Bytes} {last : Bytes}
    (hnd : (ks ++ [last]).Nodup) (hl : ks.length = 255) {h i : Nat} (hi : i < n)
    (hall : ∀ k ∈ ks ++ [last], c.hash24 k = h ∧ shardIdx c n k = i) :
    ∃ shs, run c n ((ks ++ [last]).map (plainPut now v) ++ [plainGet now last]) (newCache c) =
      .val (shs, List.replicate 256 ⟨.inserted, []⟩ ++ [⟨.notfound, []⟩]) := by
  obtain ⟨shs, h1, h2, h3⟩ := run_fill (now := now) (v := v) hv (n := n) (i := i) ([last].map (plainPut now v) ++ [plainGet now last]) ks []
    (by simpa using (List.nodup_append.1 hnd).1) (by simp [hl]) (fun k hk => (hall k (by simp [hk])).2) (newCache c)
    (allSK_new hv n (fun _ => []) i hi) rfl
  simp only [List.nil_append] at h1 h2
  have hlast := hall last (by simp)
  have hkey : (mkEnt c last v 0 0 ((shs i).cas + 1) now).key = last := rfl
  obtain ⟨m', hm, hg⟩ := mapInsert_lost hv h1.inv h1.good (by omega) (e := mkEnt c last v 0 0 ((shs i).cas + 1) now)
    (fun x hx => by rw [hkey, hlast.1]; exact (hall _ (by simp [h1.keys x hx])).1)
    (fun x hx he => by
      rw [hkey] at he
      exact (List.nodup_append.1 hnd).2.2 last (he ▸ h1.keys x hx) last (by simp) rfl)
  rw [hkey] at hg
  rw [List.map_append, List.append_assoc, h3]
  simp only [List.map_cons, List.map_nil, List.cons_append, List.nil_append]
  rw [exec_plainPut (m1 := m') (by rw [hlast.2]; exact hm), hlast.2]
  have hload : loadOp c ⟨true, true, true⟩ now last (loadOpts false (some fun _ => none)) ⟨(shs i).cas + 1, m'⟩ =
      .val ⟨⟨(shs i).cas + 1, m'⟩, .notfound, [], []⟩ := by
    unfold loadOp
    simp only []
    rw [hg]
    rfl
  have hx : run c n [plainGet now last] (update shs i ⟨(shs i).cas + 1, m'⟩) =
      .val (update (update shs i ⟨(shs i).cas + 1, m'⟩) i ⟨(shs i).cas + 1, m'⟩, [⟨.notfound, []⟩]) := by
    unfold run
    show Out.bind (onKey c n last (loadOp c ⟨true, true, true⟩ now last (loadOpts false (some fun _ => none))) _) _ = _
    unfold onKey
    simp only [hlast.2, update_self]
    rw [hload]
    rfl
  rw [hx]
  have h256 : List.replicate 256 (⟨.inserted, []⟩ : Spec.Reply) = List.replicate 255 ⟨.inserted, []⟩ ++ [⟨.inserted, []⟩] :=
    List.replicate_succ'
  refine ⟨update (update shs i ⟨(shs i).cas + 1, m'⟩) i ⟨(shs i).cas + 1, m'⟩, ?_⟩
  rw [h256, List.append_assoc]
  simp only [Out.bind, hl, List.cons_append, List.nil_append]

/-- **C10 is false.**  For every hash function, load factor and number of shards there are 256 different
keys such that a program which stores each of them once, without expiry and with all memory available,
is told that each was inserted, and then does not find the last one. -/
theorem colliding_keys_lose_an_entry {c : Ctx} (hv : c.Valid) {n : Nat} (hn : 0 < n) (now : Int) (v : Bytes) :
    ∃ (ks : List Bytes) (last : Bytes), (ks ++ [last]).Nodup ∧ ks.length = 255 ∧
      ∃ shs, run c n ((ks ++ [last]).map (plainPut now v) ++ [plainGet now last]) (newCache c) =
        .val (shs, List.replicate 256 ⟨.inserted, []⟩ ++ [⟨.notfound, []⟩]) := by
  obtain ⟨all, hnd, hlen, h, i, hi, hall⟩ := exists_colliding c hn
  obtain ⟨ks, last, rfl⟩ : ∃ ks last, all = ks ++ [last] := by
    have hne : all ≠ [] := by intro he; rw [he] at hlen; simp at hlen
    exact ⟨all.dropLast, all.getLast hne, (List.dropLast_concat_getLast hne).symm⟩
  have hl : ks.length = 255 := by simpa using hlen
  exact ⟨ks, last, hnd, hl, colliding_lose hv now v hnd hl hi hall⟩

/-- The hypotheses hold for the default load factor and any hash function. -/
example (H : Bytes → Nat) : (⟨true, false, false, true, 75, H⟩ : Ctx).Valid ∧ (0 : Nat) < 4096 := ⟨⟨(by decide : 55 ≤ 75), (by decide : 75 ≤ 95)⟩, by decide⟩

end Verif.Cache
