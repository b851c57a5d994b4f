import Verif.Shard.Small
import Verif.Cache.Props
import Mathlib.Data.List.Dedup

/-!
C01 and C10 without the ghost flag: while at most 254 different keys of a shard are ever stored, no
probe distance wraps, so the cache is a dictionary.
-/

set_option linter.constructorNameAsVariable false

namespace Verif.Cache

open Verif.Map Verif.Shard Function

/-- A good table all of whose keys are in `K`. -/
structure SK (c : Ctx) (K : List Bytes) (s : Sh) : Prop where
  inv : Inv c s.map
  good : s.map.ovf = false
  keys : ∀ x ∈ s.map.cont, x.key ∈ K

theorem SK.count {c : Ctx} {K : List Bytes} {s : Sh} (h : SK c K s) : s.map.count ≤ K.length := by
  rw [h.inv.cnt h.good]
  have h1 := h.inv.nodup h.good
  have h2 : s.map.cont.map Ent.key ≤ (K : Multiset Bytes) := by
    rw [Multiset.le_iff_subset h1]
    intro k hk
    obtain ⟨x, hx, rfl⟩ := Multiset.mem_map.1 hk
    simpa using h.keys x hx
  have := Multiset.card_le_card h2
  simpa using this

/-- An absent key leaves room for one more. -/
theorem SK.room {c : Ctx} {K : List Bytes} {s : Sh} (h : SK c K s) {key : Bytes} (hk : key ∈ K)
    (hn : ¬ ∃ x ∈ s.map.cont, x.key = key) : s.map.count + 1 ≤ K.length := by
  rw [h.inv.cnt h.good]
  have h1 := h.inv.nodup h.good
  have h3 : (key ::ₘ s.map.cont.map Ent.key).Nodup := by
    rw [Multiset.nodup_cons]
    refine ⟨?_, h1⟩
    intro hm
    obtain ⟨x, hx, he⟩ := Multiset.mem_map.1 hm
    exact hn ⟨x, hx, he⟩
  have h2 : key ::ₘ s.map.cont.map Ent.key ≤ (K : Multiset Bytes) := by
    rw [Multiset.le_iff_subset h3]
    intro k hk'
    rcases Multiset.mem_cons.1 hk' with rfl | hk'
    · simpa using hk
    · obtain ⟨x, hx, rfl⟩ := Multiset.mem_map.1 hk'
      simpa using h.keys x hx
  have := Multiset.card_le_card h2
  simpa using this

theorem SK.rep {c : Ctx} {K : List Bytes} {s : Sh} (h : SK c K s) : ∃ p, SRep s p ∧ ∀ k e, p.f k = some e → k ∈ K := by
  obtain ⟨f, hf⟩ := rep_exists (h.inv.nodup h.good)
  refine ⟨⟨f, s.cas⟩, ⟨hf, rfl⟩, ?_⟩
  intro k e he
  obtain ⟨h1, rfl⟩ := (hf k e).1 he
  exact h.keys e h1

theorem SK.of_rep {c : Ctx} {K : List Bytes} {s : Sh} (hi : Inv c s.map) (hg : s.map.ovf = false) {p : PS} (hp : SRep s p)
    (h : ∀ k e, p.f k = some e → k ∈ K) : SK c K s :=
  ⟨hi, hg, fun x hx => h x.key x ((hp.1 _ _).2 ⟨hx, rfl⟩)⟩

/-- Removing or changing entries of one key. -/
theorem keys_update {K : List Bytes} {f : Bytes → Option Ent} (h : ∀ k e, f k = some e → k ∈ K) {key : Bytes}
    (v : Option Ent) (hk : v ≠ none → key ∈ K) : ∀ k e, update f key v k = some e → k ∈ K := by
  intro k e he
  by_cases hkk : k = key
  · subst hkk
    rw [update_self] at he
    exact hk (by rw [he]; simp)
  · rw [update_of_ne hkk] at he
    exact h k e he

theorem loadOp_sk {c : Ctx} (hv : c.Valid) (mem : Mem) (now : Int) (key : Bytes) (o : LoadOpts) {K : List Bytes} {s : Sh}
    (h : SK c K s) : ∃ r, loadOp c mem now key o s = .val r ∧ SK c K r.sh := by
  have hg := loadOp_good hv mem now key o h.inv h.good
  obtain ⟨r, hr, hi, _, hs⟩ := loadOp_spec hv mem now key o h.inv
  rw [hr] at hg
  obtain ⟨p, hp, hk⟩ := h.rep
  obtain ⟨h1, _⟩ := hs h.good p hp
  refine ⟨r, hr, .of_rep hi hg h1 ?_⟩
  unfold pLoad
  cases hf : p.f key with
  | none => exact hk
  | some e =>
    have hkey := hk key e hf
    simp only []
    split
    · split
      · exact keys_update hk _ (fun _ => hkey)
      · split
        · exact keys_update hk _ (fun _ => hkey)
        · split <;> exact keys_update hk _ (fun _ => hkey)
    · exact keys_update hk _ (fun _ => hkey)

theorem deleteOp_sk {c : Ctx} (hv : c.Valid) (mem : Mem) (now : Int) (key : Bytes) (cb : Option (Ent → Bool))
    {K : List Bytes} {s : Sh} (h : SK c K s) (hK : K.length ≤ 254) : ∃ r, deleteOp c mem now key cb s = .val r ∧ SK c K r.sh := by
  have hg := deleteOp_good hv mem now key cb h.inv h.good (by have := h.count; omega)
  rcases deleteOp_spec hv mem now key cb h.inv with ⟨r, hr, hi, hs⟩ | ha
  · rw [hr] at hg
    obtain ⟨p, hp, hk⟩ := h.rep
    obtain ⟨h1, _⟩ := (hs hg).2 p hp
    refine ⟨r, hr, .of_rep hi hg h1 ?_⟩
    unfold pDelete
    cases hf : p.f key with
    | none => exact hk
    | some e =>
      have hkey := hk key e hf
      simp only []
      split
      · split
        · exact hk
        · exact keys_update hk _ (fun _ => hkey)
      · exact keys_update hk _ (fun _ => hkey)
  · rw [ha] at hg
    simp [Good] at hg

theorem storeOp_sk {c : Ctx} (hv : c.Valid) (mem : Mem) (now : Int) (key val : Bytes) (o : StoreOpts)
    {K : List Bytes} {s : Sh} (h : SK c K s) (hK : K.length ≤ 254) (hkey : key ∈ K) {req : Int}
    (hreq : reqExpires o now = .val req) (hmem : mem.ent = true) :
    ∃ r, storeOp c mem now key val o s = .val r ∧ SK c K r.sh := by
  have hcnt := h.count
  have hroom : s.map.count ≤ 253 ∨ ∃ x ∈ s.map.cont, x.key = key := by
    by_cases hx : ∃ x ∈ s.map.cont, x.key = key
    · exact Or.inr hx
    · have := h.room hkey hx; omega
  have hg := storeOp_good hv mem now key val o h.inv hreq h.good (by omega) hroom
  rcases storeOp_spec hv mem now key val o h.inv hreq hmem with ⟨r, hr, hi, _, hs⟩ | ha
  · rw [hr] at hg
    obtain ⟨p, hp, hk⟩ := h.rep
    obtain ⟨q, h1, _, _, _, h2⟩ := (hs hg).2 p hp
    refine ⟨r, hr, .of_rep hi hg h1 ?_⟩
    split at h2
    · rw [h2]; exact hk
    · unfold PStore at h2
      simp only [] at h2
      cases hl : p.live now key with
      | some old =>
        rw [hl] at h2
        simp only [] at h2
        split at h2
        · rw [h2]; exact hk
        · split at h2
          · rw [h2]; exact hk
          · rw [h2]; exact keys_update hk _ (fun _ => hkey)
      | none =>
        rw [hl] at h2
        simp only [] at h2
        split at h2
        · rw [h2]; exact keys_update hk _ (by simp)
        · rcases h2 with h2 | ⟨_, _, v, ev, _, _, _, h2⟩
          · rw [h2]; exact keys_update hk _ (fun _ => hkey)
          · rw [h2]; exact keys_update (keys_update hk _ (fun _ => hkey)) _ (by simp)
  · rw [ha] at hg
    simp [Good] at hg

theorem keys_removed {K : List Bytes} {f : Bytes → Option Ent} (h : ∀ k e, f k = some e → k ∈ K) (l : List Ent) :
    ∀ k e, removed f l k = some e → k ∈ K := by
  intro k e he
  unfold removed at he
  split at he
  · simp at he
  · exact h k e he

theorem iterOp_sk {c : Ctx} (hv : c.Valid) (mem : Mem) (now : Int) (cb : Option (List Ent → Ent → Act))
    {K : List Bytes} {s : Sh} (h : SK c K s) (hK : K.length ≤ 254) : ∃ r, iterOp c mem now cb s = .val r ∧ SK c K r.sh := by
  have hg := iterOp_good hv mem now cb h.inv h.good (by have := h.count; omega)
  obtain ⟨r, hr, hi, hs⟩ := iterOp_spec hv mem now cb h.inv
  rw [hr] at hg
  obtain ⟨p, hp, hk⟩ := h.rep
  obtain ⟨q, _, _, h1, _, h2, _⟩ := (hs hg).2 p hp
  exact ⟨r, hr, .of_rep hi hg h1 (by rw [h2.after]; exact keys_removed hk _)⟩

theorem sweepOp_sk {c : Ctx} (hv : c.Valid) (mem : Mem) (now : Int)
    {K : List Bytes} {s : Sh} (h : SK c K s) (hK : K.length ≤ 254) : ∃ r, sweepOp c mem now s = .val r ∧ SK c K r.1.sh := by
  have hg := sweepOp_good hv mem now h.inv h.good (by have := h.count; omega)
  obtain ⟨r, sw, kp, hr, hi, hs⟩ := sweepOp_spec hv mem now h.inv
  rw [hr] at hg
  obtain ⟨p, hp, hk⟩ := h.rep
  obtain ⟨q, _, h1, _, h2, _⟩ := (hs hg).2.2 p hp
  exact ⟨_, hr, .of_rep hi hg h1 (by rw [h2.after]; exact keys_removed hk _)⟩

theorem clearOp_sk {c : Ctx} (hv : c.Valid) (mem : Mem) (now : Int)
    {K : List Bytes} {s : Sh} (h : SK c K s) (hm : mem.tbl = true) : ∃ r, clearOp c mem now s = .val r ∧ SK c K r.sh := by
  have hg := clearOp_good (c := c) mem now h.good
  obtain ⟨r, hr, hi, _, _, hs⟩ := clearOp_spec hv mem now h.inv hm
  rw [hr] at hg
  obtain ⟨p, hp, hk⟩ := h.rep
  obtain ⟨h1, _⟩ := (hs hg).2 p hp
  exact ⟨_, hr, .of_rep hi hg h1 (by simp)⟩

/-- All shards hold only keys from their lists. -/
def AllSK (c : Ctx) (n : Nat) (K : Nat → List Bytes) (shs : Shards) : Prop := ∀ i, i < n → SK c (K i) (shs i)

theorem AllSK.put {c : Ctx} {n : Nat} {K : Nat → List Bytes} {shs : Shards} (h : AllSK c n K shs) {i : Nat} {sh : Sh}
    (hs : SK c (K i) sh) : AllSK c n K (update shs i sh) := by
  intro j hj
  by_cases hji : j = i
  · subst hji; rw [update_self]; exact hs
  · rw [update_of_ne hji]; exact h j hj

theorem iterShards_sk {c : Ctx} (hv : c.Valid) {n : Nat} {K : Nat → List Bytes} (hK : ∀ i, i < n → (K i).length ≤ 254)
    (mem : Nat → Mem) (now : Int) (cb : Option (List Ent → Ent → Act)) (is : List Nat) (his : ∀ i ∈ is, i < n)
    (acc : List Ent) (shs : Shards) (h : AllSK c n K shs) :
    ∃ r, iterShards c mem now cb is acc shs = .val r ∧ AllSK c n K r.shs := by
  induction is generalizing acc shs with
  | nil => exact ⟨_, rfl, h⟩
  | cons i is ih =>
    have hi := his i (by simp)
    obtain ⟨r, hr, hs⟩ := iterOp_sk hv (mem i) now (cb.map fun f l e => f (acc ++ l) e) (h i hi) (hK i hi)
    unfold iterShards
    rw [hr]
    simp only [Out.bind]
    split
    · exact ⟨_, rfl, h.put hs⟩
    · obtain ⟨r2, hr2, hs2⟩ := ih (fun j hj => his j (by simp [hj])) (acc ++ r.seen) _ (h.put hs)
      rw [hr2]
      exact ⟨_, rfl, hs2⟩

theorem sweepShards_sk {c : Ctx} (hv : c.Valid) {n : Nat} {K : Nat → List Bytes} (hK : ∀ i, i < n → (K i).length ≤ 254)
    (mem : Nat → Mem) (now : Int) (is : List Nat) (his : ∀ i ∈ is, i < n)
    (shs : Shards) (h : AllSK c n K shs) :
    ∃ r, sweepShards c mem now is shs = .val r ∧ AllSK c n K r.1.shs := by
  induction is generalizing shs with
  | nil => exact ⟨_, rfl, h⟩
  | cons i is ih =>
    have hi := his i (by simp)
    obtain ⟨⟨r, sw, kp⟩, hr, hs⟩ := sweepOp_sk hv (mem i) now (h i hi) (hK i hi)
    unfold sweepShards
    rw [hr]
    simp only [Out.bind]
    obtain ⟨r2, hr2, hs2⟩ := ih (fun j hj => his j (by simp [hj])) _ (h.put hs)
    rw [hr2]
    exact ⟨_, rfl, hs2⟩

theorem clearShards_sk {c : Ctx} (hv : c.Valid) {n : Nat} {K : Nat → List Bytes}
    (mem : Nat → Mem) (hm : ∀ i, (mem i).tbl = true) (now : Int) (is : List Nat) (his : ∀ i ∈ is, i < n)
    (shs : Shards) (h : AllSK c n K shs) :
    ∃ r, clearShards c mem now is shs = .val r ∧ AllSK c n K r.shs := by
  induction is generalizing shs with
  | nil => exact ⟨_, rfl, h⟩
  | cons i is ih =>
    have hi := his i (by simp)
    obtain ⟨r, hr, hs⟩ := clearOp_sk hv (mem i) now (h i hi) (hm i)
    unfold clearShards
    rw [hr]
    simp only [Out.bind]
    obtain ⟨r2, hr2, hs2⟩ := ih (fun j hj => his j (by simp [hj])) _ (h.put hs)
    rw [hr2]
    exact ⟨_, rfl, hs2⟩

/-- The key a call stores. -/
def storedKey : Spec.Call → List Bytes
  | .store a => [a.key]
  | _ => []

theorem exec_sk {c : Ctx} (hv : c.Valid) {n : Nat} (hn : 0 < n) {K : Nat → List Bytes}
    (hK : ∀ i, i < n → (K i).length ≤ 254) (mem : Nat → Mem) (oom : Bool) (now : Int) (call : Spec.Call) {shs : Shards}
    (h : AllSK c n K shs) (hok : CallOk mem oom now call) (hk : ∀ k ∈ storedKey call, k ∈ K (shardIdx c n k)) :
    ∃ r, exec c n mem now (toOp call) shs = .val r ∧ AllSK c n K r.shs := by
  obtain ⟨h0, h1, _, h3⟩ := hok
  have honKey : ∀ key op, (∃ r, op (shs (shardIdx c n key)) = .val r ∧ SK c (K (shardIdx c n key)) r.sh) →
      ∃ r, onKey c n key op shs = .val r ∧ AllSK c n K r.shs := by
    rintro key op ⟨r, hr, hs⟩
    unfold onKey
    simp only [hr, Out.bind]
    exact ⟨_, rfl, h.put hs⟩
  cases call with
  | load k nt cb => exact honKey _ _ (loadOp_sk hv _ _ _ _ (h _ (shardIdx_lt c hn k)))
  | store a =>
    refine honKey _ _ (storeOp_sk hv _ _ _ _ _ (h _ (shardIdx_lt c hn _)) (hK _ (shardIdx_lt c hn _))
      (hk _ (by simp [storedKey])) (reqExpires_val h0 h1 h3.1) (h3.2 _))
  | delete k ask => exact honKey _ _ (deleteOp_sk hv _ _ _ _ (h _ (shardIdx_lt c hn k)) (hK _ (shardIdx_lt c hn _)))
  | iter one cb => exact iterShards_sk hv hK mem now _ _ (scope_lt n one) _ _ h
  | sweep one =>
    obtain ⟨r, hr, hs⟩ := sweepShards_sk hv hK mem now _ (scope_lt n one) _ h
    refine ⟨r.1, ?_, hs⟩
    show ((sweepShards c mem now (scope n one) shs).bind fun (r, _, _) => .val r) = .val r.1
    rw [hr]; rfl
  | clear one => exact clearShards_sk hv mem h3 now _ (scope_lt n one) _ h

theorem allSK_new {c : Ctx} (hv : c.Valid) (n : Nat) (K : Nat → List Bytes) : AllSK c n K (newCache c) := by
  intro i _
  refine ⟨inv_init hv, rfl, ?_⟩
  intro x hx
  unfold newCache shardInit at hx
  simp only [] at hx
  rw [cont_init] at hx
  simp at hx

theorem run_sk {c : Ctx} (hv : c.Valid) {n : Nat} (hn : 0 < n) {K : Nat → List Bytes}
    (hK : ∀ i, i < n → (K i).length ≤ 254) (l : List HCall) (shs : Shards) (h : AllSK c n K shs)
    (hok : ∀ x ∈ l, x.ok) (hk : ∀ x ∈ l, ∀ k ∈ storedKey x.call, k ∈ K (shardIdx c n k)) :
    ∃ shs' rs, run c n l shs = .val (shs', rs) ∧ AllSK c n K shs' := by
  induction l generalizing shs with
  | nil => exact ⟨_, _, rfl, h⟩
  | cons x l ih =>
    obtain ⟨r, hr, hs⟩ := exec_sk hv hn hK x.mem x.oom x.now x.call h (hok x (by simp)) (hk x (by simp))
    obtain ⟨shs', rs, hr2, hs2⟩ := ih r.shs hs (fun y hy => hok y (by simp [hy])) (fun y hy => hk y (by simp [hy]))
    unfold run
    rw [hr]
    simp only [Out.bind, hr2]
    exact ⟨_, _, rfl, hs2⟩

/-- The different keys a history stores. -/
def storedKeys (l : List HCall) : List Bytes := (l.flatMap fun x => storedKey x.call).dedup

/-- **C01, C10.**  A history that stores at most 254 different keys in each shard always completes, with
the replies of the dictionary; no probe distance wraps and no assertion fails, for every hash function. -/
theorem small_cache_is_dictionary_partial {c : Ctx} (hv : c.Valid) {n : Nat} (hn : 0 < n) (l : List HCall)
    (hok : ∀ x ∈ l, x.ok) (hmono : l.Pairwise fun a b => a.now ≤ b.now)
    (hsmall : ∀ i, i < n → ((storedKeys l).filter fun k => shardIdx c n k = i).length ≤ 254) :
    ∃ shs rs st', run c n l (newCache c) = .val (shs, rs) ∧ rs.length = l.length ∧
      Spec.Steps ⟨c.usecas, c.noevict, shardIdx c n⟩ ((l.map HCall.timed).zip rs) ⟨fun _ => none, fun _ => 1⟩ st' := by
  obtain ⟨shs, rs, hr, hs⟩ := run_sk hv hn (K := fun i => (storedKeys l).filter fun k => shardIdx c n k = i) hsmall l
    (newCache c) (allSK_new hv n _) hok (by
      intro x hx k hk
      simp only [List.mem_filter, decide_true, and_true]
      exact List.mem_dedup.2 (List.mem_flatMap.2 ⟨x, hx, hk⟩))
  rcases cache_is_dictionary_partial hv hn l hok hmono with ⟨shs', rs', h1, h2, h3⟩ | ha
  · rw [hr] at h1
    simp only [Out.val.injEq, Prod.mk.injEq] at h1
    obtain ⟨rfl, rfl⟩ := h1
    obtain ⟨st', h4⟩ := h3 (fun i hi => (hs i hi).good)
    exact ⟨shs, rs, st', hr, h2, h4⟩
  · rw [hr] at ha
    simp at ha

/-- The history of `Verif.Cache.Props` stores three different keys. -/
example : (storedKeys Example.hist).length = 3 ∧
    ∀ i, i < 2 → ((storedKeys Example.hist).filter fun k => shardIdx Example.ctx 2 k = i).length ≤ 254 := by
  decide +kernel

end Verif.Cache
