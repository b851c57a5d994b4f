import Verif.Cache.Refine

/-!
C01: the cache is a dictionary with expiry.
-/

namespace Verif.Cache

open Verif.Map Verif.Shard Function

/-- One call of a history: the call, its time, which allocations succeed in each shard, and whether any
of them may fail. -/
structure HCall where
  call : Spec.Call
  now : Int
  mem : Nat → Mem
  oom : Bool

def HCall.ok (h : HCall) : Prop := CallOk h.mem h.oom h.now h.call

def HCall.timed (h : HCall) : Spec.Timed := ⟨h.now, h.oom, h.call⟩

/-- Run a history of calls, collecting the replies. -/
def run (c : Ctx) (n : Nat) : List HCall → Shards → Out (Shards × List Spec.Reply)
  | [], shs => .val (shs, [])
  | h :: l, shs =>
    (exec c n h.mem h.now (toOp h.call) shs).bind fun r =>
      (run c n l r.shs).bind fun q => .val (q.1, reply r :: q.2)

theorem allInv_new {c : Ctx} (hv : c.Valid) (n : Nat) : AllInv c n (newCache c) := fun _ _ => inv_init hv

theorem R_new (c : Ctx) (n : Nat) (now : Int) : R c n now (newCache c) ⟨fun _ => none, fun _ => 1⟩ := by
  intro i hi
  refine ⟨⟨fun _ => none, 1⟩, ⟨?_, rfl⟩, rfl, by simp, ?_⟩
  · intro k e
    show none = some e ↔ e ∈ (mapInit c 64).cont ∧ _
    rw [cont_init]; simp
  · intro k hk t ht
    rfl

theorem run_refines {c : Ctx} (hv : c.Valid) {n : Nat} (hn : 0 < n) (l : List HCall) (shs : Shards)
    (h : AllInv c n shs) (hok : ∀ x ∈ l, x.ok) (hmono : l.Pairwise fun a b => a.now ≤ b.now) :
    (∃ shs' rs, run c n l shs = .val (shs', rs) ∧ rs.length = l.length ∧ AllInv c n shs' ∧
      (NoWrap n shs' → NoWrap n shs ∧ ∀ now0 st, (∀ x ∈ l, now0 ≤ x.now) → R c n now0 shs st →
        ∃ st' now', R c n now' shs' st' ∧ now0 ≤ now' ∧ (∀ x ∈ l, x.now ≤ now') ∧ (∀ T, now0 ≤ T → (∀ x ∈ l, x.now ≤ T) → now' ≤ T) ∧
          Spec.Steps ⟨c.usecas, c.noevict, shardIdx c n⟩ ((l.map HCall.timed).zip rs) st st')) ∨
    run c n l shs = .abort true := by
  induction l generalizing shs with
  | nil =>
    left
    exact ⟨shs, [], rfl, rfl, h, fun hnw => ⟨hnw, fun now0 st _ hR => ⟨st, now0, hR, le_refl _, by simp, fun _ h _ => h, .nil st⟩⟩⟩
  | cons x l ih =>
    obtain ⟨hm1, hm2⟩ := List.pairwise_cons.1 hmono
    unfold run
    rcases exec_refines hv hn x.mem x.oom x.now x.call h (hok x (by simp)) with ⟨r, hr, hA, hspec⟩ | hab
    · rw [hr]
      simp only [Out.bind]
      rcases ih r.shs hA (fun y hy => hok y (by simp [hy])) hm2 with ⟨shs', rs, hrun, hlen, hA', hspec'⟩ | hab
      · left
        rw [hrun]
        refine ⟨shs', reply r :: rs, rfl, by simp [hlen], hA', ?_⟩
        intro hnw
        obtain ⟨hnw1, hs2⟩ := hspec' hnw
        obtain ⟨hnw0, hs1⟩ := hspec hnw1
        refine ⟨hnw0, ?_⟩
        intro now0 st hle hR
        obtain ⟨st1, hR1, hstep⟩ := hs1 now0 st (hle x (by simp)) hR
        obtain ⟨st2, now2, hR2, hn2, hall, hup, hsteps⟩ := hs2 x.now st1 hm1 hR1
        refine ⟨st2, now2, hR2, le_trans (hle x (by simp)) hn2, ?_, fun T _ hT => hup T (hT x (by simp)) fun y hy => hT y (by simp [hy]), ?_⟩
        · intro y hy
          rcases List.mem_cons.1 hy with rfl | hy
          · exact hn2
          · exact hall y hy
        · rw [List.map_cons, List.zip_cons_cons]
          exact .cons hstep hsteps
      · right; rw [hab]
    · right; rw [hab]; rfl

/-- **C01.**  Every history of calls with a non-decreasing clock, on a new cache with any hash function,
number of shards, load factor and shrink setting, completes, and the replies are those of the dictionary
of `Verif.Cache.Spec` — as long as no probe distance reaches 256 (`NoWrap`; see C10 for when that holds).
The only other outcome is a failed assertion after a probe distance did reach 256. -/
theorem cache_is_dictionary_partial {c : Ctx} (hv : c.Valid) {n : Nat} (hn : 0 < n) (l : List HCall)
    (hok : ∀ x ∈ l, x.ok) (hmono : l.Pairwise fun a b => a.now ≤ b.now) :
    (∃ shs rs, run c n l (newCache c) = .val (shs, rs) ∧ rs.length = l.length ∧
      (NoWrap n shs → ∃ st', Spec.Steps ⟨c.usecas, c.noevict, shardIdx c n⟩ ((l.map HCall.timed).zip rs)
        ⟨fun _ => none, fun _ => 1⟩ st')) ∨
    run c n l (newCache c) = .abort true := by
  rcases run_refines hv hn l (newCache c) (allInv_new hv n) hok hmono with ⟨shs, rs, h1, h2, _, h3⟩ | h
  · left
    refine ⟨shs, rs, h1, h2, ?_⟩
    intro hnw
    obtain ⟨_, h4⟩ := h3 hnw
    cases l with
    | nil =>
      have : rs = [] := by simpa using h2
      subst this
      exact ⟨_, .nil _⟩
    | cons x l =>
      obtain ⟨st', _, _, _, _, _, h5⟩ := h4 x.now _ (by
        intro y hy
        rcases List.mem_cons.1 hy with rfl | hy
        · exact le_refl _
        · exact (List.pairwise_cons.1 hmono).1 y hy) (R_new c n x.now)
      exact ⟨st', h5⟩
  · right; exact h

/-! A concrete history: two shards, a hash that sends `[1]` and `[2]` to different shards and `[1]` and
`[3]` to the same bucket of the same shard. -/

namespace Example

def ctx : Ctx := ⟨true, false, false, true, 75, fun k => if k = [2] then 2 ^ 32 + 63 else 63⟩

def okMem : Nat → Mem := fun _ => ⟨true, true, true⟩

def put (k v : Bytes) (ttl : Int) : Spec.Call :=
  .store { key := k, val := v, expires := 0, ttl, cas := 0, flags := 7, keepttl := false, casop := false
           nx := false, xx := false, lowmem := false, ask := none }

def get (k : Bytes) : Spec.Call := .load k false (some fun _ => none)

def hist : List HCall :=
  [⟨put [1] [10] 5, 100, okMem, false⟩, ⟨put [2] [20] 0, 100, okMem, false⟩, ⟨put [3] [30] 0, 101, okMem, false⟩,
   ⟨get [1], 104, okMem, false⟩, ⟨get [1], 105, okMem, false⟩, ⟨get [3], 105, okMem, false⟩,
   ⟨.sweep none, 106, okMem, false⟩,
   ⟨.iter none (some fun _ x => if x.1 = [3] then .delete else .cont), 107, okMem, false⟩,
   ⟨get [3], 108, okMem, false⟩, ⟨get [2], 108, okMem, false⟩]

/-- The statuses and values returned. -/
def outcome (o : Out (Shards × List Spec.Reply)) : List (Spec.Status × List Bytes) :=
  match o with
  | .val (_, rs) => rs.map fun r => (r.status, r.shown.map fun x => x.2.value)
  | _ => []

example : ctx.Valid ∧ (∀ x ∈ hist, x.ok) ∧ (hist.Pairwise fun a b => a.now ≤ b.now) := by
  refine ⟨⟨by decide, by decide⟩, ?_, by decide⟩
  intro x hx
  unfold hist at hx
  simp only [List.mem_cons, List.not_mem_nil, or_false] at hx
  rcases hx with rfl | rfl | rfl | rfl | rfl | rfl | rfl | rfl | rfl | rfl <;>
    simp [HCall.ok, CallOk, okMem, put, get, Num.IsI64]

example : outcome (run ctx 2 hist (newCache ctx)) =
    [(.inserted, []), (.inserted, []), (.inserted, []), (.found, [[10]]), (.notfound, []), (.found, [[30]]),
     (.finished, []), (.finished, [[30], [20]]), (.notfound, []), (.found, [[20]])] := by decide +kernel

example : (match run ctx 2 hist (newCache ctx) with
    | .val (shs, _) => (shs 0).map.ovf || (shs 1).map.ovf
    | _ => true) = false := by decide +kernel

end Example

end Verif.Cache
