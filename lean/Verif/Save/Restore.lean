import Verif.Save.Format
import Verif.Cache.History

/-!
C28: saving and loading.
-/

namespace Verif.Save

open Verif.Cache Verif.Shard Verif.Num
open Verif.Map (Ctx)

/-! ### Running save and load on the cache -/

/-- All allocations succeed. -/
def okMem : Nat → Mem := fun _ => ⟨true, true, true⟩

/-- The iteration of one shard made by `thsave`, `/repo/src/save.c:122-132`; its callback always answers "continue"
(line 117). -/
def saveCall (i : Nat) (now : Int) : HCall := ⟨.iter (some i) (some fun _ _ => .cont), now, okMem, false⟩

/-- A store made by `load_block`, `/repo/src/save.c:357-364`. -/
def storeCall (x : Spec.StoreArgs × Int) : HCall := ⟨.store x.1, x.2, okMem, false⟩

/-- The load of a client. -/
def getCall (k : Bytes) (now : Int) : HCall := ⟨.load k false (some fun _ => none), now, okMem, false⟩

/-- The blocks of the shards `ord`, in this order, `/repo/src/save.c:120-141`.  Shard `i` was visited at `clk i` on the
monotonic clock and `clk i + δ` on the wall clock, and showed the entries `shown i`. -/
def fileOf (z : Lz4) (clk : Nat → Int) (δ : Int) (shown : Nat → List (Bytes × Spec.Item)) : List Nat → Option Bytes
  | [] => some []
  | i :: is => (shardBlock z (clk i) (clk i + δ) (shown i)).bind fun a => (fileOf z clk δ shown is).map fun b => a ++ b

/-- All stores made by `load` when no block fails, `/repo/src/save.c:376-411`: block `j` of the file is worked on at `lt j` on the
monotonic clock and `lt j + δ` on the wall clock. -/
def loadStores (z : Lz4) (lt : Nat → Int) (δ : Int) (bs : List (Bytes × Nat)) : List (Spec.StoreArgs × Int) :=
  bs.zipIdx.flatMap fun (b, j) => (loadBlock z (lt j + δ) b.1 b.2).1.map fun a => (a, lt j)

/-! ### The dictionary under simple stores -/

/-- A store without conditions. -/
def Plain (a : Spec.StoreArgs) : Prop :=
  a.expires = 0 ∧ a.keepttl = false ∧ a.casop = false ∧ a.nx = false ∧ a.xx = false ∧ a.lowmem = false ∧ a.ask = none

theorem step_plain {env : Spec.Env} {a : Spec.StoreArgs} (hp : Plain a) {now : Int} {s s' : Spec.State} {r : Spec.Reply}
    (h : Spec.Step env false now (.store a) s r s') :
    ∃ cas, s'.dict = Function.update s.dict a.key (some ⟨a.val, Spec.normExp (a.asked now), a.flags, cas⟩) := by
  obtain ⟨_, hk, hc, hnx, hxx, hl, ha⟩ := hp
  unfold Spec.Step at h
  simp only [hk, hc, hnx, hxx, hl, ha] at h
  simp only [Bool.false_and, Bool.false_eq_true, if_false, false_and, false_or, Option.map_none, reduceCtorEq, or_self] at h
  cases hg : s.dict.get now a.key with
  | none =>
    rw [hg] at h
    simp only [or_false] at h
    rw [h.2]
    exact ⟨_, rfl⟩
  | some it =>
    rw [hg] at h
    simp only [] at h
    rw [h.2]
    exact ⟨_, rfl⟩

theorem steps_stores {env : Spec.Env} (l : List (Spec.StoreArgs × Int)) (hp : ∀ x ∈ l, Plain x.1) {rs : List Spec.Reply}
    (hlen : rs.length = l.length) {s s' : Spec.State}
    (h : Spec.Steps env (((l.map storeCall).map HCall.timed).zip rs) s s') (k : Bytes) :
    ((∀ x ∈ l, x.1.key ≠ k) → s'.dict k = s.dict k) ∧
    ∀ v e f, (∀ x ∈ l, x.1.key = k → x.1.val = v ∧ Spec.normExp (x.1.asked x.2) = e ∧ x.1.flags = f) →
      ((∃ x ∈ l, x.1.key = k) ∨ ∃ cas, s.dict k = some ⟨v, e, f, cas⟩) → ∃ cas, s'.dict k = some ⟨v, e, f, cas⟩ := by
  induction l generalizing s rs with
  | nil =>
    cases h
    refine ⟨fun _ => rfl, ?_⟩
    rintro v e f _ (⟨x, hx, _⟩ | h)
    · simp at hx
    · exact h
  | cons x l ih =>
    cases rs with
    | nil => simp at hlen
    | cons r rs =>
      simp only [List.map_cons, List.zip_cons_cons] at h
      cases h with
      | cons h1 h2 =>
        obtain ⟨cas, hd⟩ := step_plain (hp x (by simp)) h1
        obtain ⟨i1, i2⟩ := ih (fun y hy => hp y (by simp [hy])) (by simpa using hlen) h2
        constructor
        · intro hne
          rw [i1 (fun y hy => hne y (by simp [hy])), hd, Function.update_of_ne (Ne.symm (hne x (by simp)))]
        · intro v e f hall hex
          apply i2 v e f (fun y hy => hall y (by simp [hy]))
          by_cases hk : x.1.key = k
          · right
            obtain ⟨a1, a2, a3⟩ := hall x (by simp) hk
            refine ⟨cas, ?_⟩
            rw [hd, hk, Function.update_self, a1, ← a2, a3]; rfl
          · rcases hex with ⟨y, hy, hyk⟩ | ⟨cas', hc⟩
            · left
              rcases List.mem_cons.1 hy with rfl | hy
              · exact absurd hyk hk
              · exact ⟨y, hy, hyk⟩
            · right
              exact ⟨cas', by rw [hd, Function.update_of_ne (Ne.symm hk), hc]⟩

theorem steps_append {env : Spec.Env} {a b : List (Spec.Timed × Spec.Reply)} {s s' : Spec.State}
    (h : Spec.Steps env (a ++ b) s s') : ∃ m, Spec.Steps env a s m ∧ Spec.Steps env b m s' := by
  induction a generalizing s with
  | nil => exact ⟨s, .nil s, h⟩
  | cons x a ih =>
    cases h with
    | cons h1 h2 =>
      obtain ⟨m, h3, h4⟩ := ih h2
      exact ⟨m, .cons h1 h3, h4⟩

theorem asksDel_cont (l pre : List (Bytes × Spec.Item)) : Spec.asksDel (fun _ _ => .cont) pre l = [] := by
  induction l generalizing pre with
  | nil => rfl
  | cons x l ih => unfold Spec.asksDel; simp [ih]

theorem asksStop_cont (l pre : List (Bytes × Spec.Item)) : Spec.asksStop (fun _ _ => .cont) pre l = false := by
  induction l generalizing pre with
  | nil => rfl
  | cons x l ih => unfold Spec.asksStop; simp [ih]

/-- What the iterations of a save show. -/
theorem steps_saves {env : Spec.Env} (ord : List Nat) (clk : Nat → Int) (shown : Nat → List (Bytes × Spec.Item)) {rs : List Spec.Reply}
    (hrs : rs.map (·.shown) = ord.map shown) {s s' : Spec.State}
    (h : Spec.Steps env (((ord.map fun i => saveCall i (clk i)).map HCall.timed).zip rs) s s') :
    ∀ i ∈ ord, (∀ x ∈ shown i, s.dict.get (clk i) x.1 = some x.2 ∧ env.grp x.1 = i) ∧
      ∀ k it, s.dict.get (clk i) k = some it → env.grp k = i → (k, it) ∈ shown i := by
  induction ord generalizing s rs with
  | nil => simp
  | cons i ord ih =>
    cases rs with
    | nil => simp at hrs
    | cons r rs =>
      simp only [List.map_cons, List.zip_cons_cons] at h
      simp only [List.map_cons, List.cons.injEq] at hrs
      cases h with
      | cons h1 h2 =>
        simp only [saveCall, HCall.timed, Spec.Step] at h1
        obtain ⟨g1, g2, g3, g4⟩ := h1
        have hd : s.dict = (⟨fun k => if k ∈ Spec.asksDel (fun _ _ => .cont) [] r.shown then none else s.dict k, s.tok⟩ : Spec.State).dict := by
          simp [asksDel_cont]
        have ih := ih hrs.2 h2
        rw [asksStop_cont] at g2
        simp only [Bool.false_eq_true, if_false] at g2
        intro j hj
        rcases List.mem_cons.1 hj with rfl | hj
        · rw [← hrs.1]
          constructor
          · intro x hx
            obtain ⟨p, q⟩ := g1 x hx
            exact ⟨p, by have := q j rfl; exact_mod_cast this⟩
          · intro k it hk hg
            exact g3 g2 k it hk (by intro i' hi'; simp at hi'; rw [← hi', hg])
        · have := ih j hj
          rw [g4, ← hd] at this
          exact this

/-! ### The file -/

/-- Shards with something to save, in the order of the file. -/
def busy (shown : Nat → List (Bytes × Spec.Item)) (ord : List Nat) : List Nat := ord.filter fun i => shown i ≠ []

theorem fileOf_blocks {z : Lz4} {clk : Nat → Int} {δ : Int} {shown : Nat → List (Bytes × Spec.Item)} (ord : List Nat) {file : Bytes}
    (h : fileOf z clk δ shown ord = some file) :
    ∃ data : Nat → Bytes, (∀ i ∈ busy shown ord, blockData (clk i) (clk i + δ) (shown i) = some (data i)) ∧
      file = ((busy shown ord).map data).flatMap (encodeBlock z) := by
  refine ⟨fun i => (blockData (clk i) (clk i + δ) (shown i)).getD [], ?_⟩
  induction ord generalizing file with
  | nil =>
    simp only [fileOf, Option.some.injEq] at h
    subst h
    exact ⟨by simp [busy], by simp [busy]⟩
  | cons i ord ih =>
    unfold fileOf at h
    obtain ⟨a, ha, h⟩ := Option.bind_eq_some_iff.1 h
    obtain ⟨b, hb, rfl⟩ := Option.map_eq_some_iff.1 h
    obtain ⟨i1, i2⟩ := ih hb
    unfold shardBlock at ha
    split at ha
    · rename_i hnil
      simp only [Option.some.injEq] at ha
      subst ha
      have : busy shown (i :: ord) = busy shown ord := by unfold busy; rw [List.filter_cons_of_neg (by simp [hnil])]
      rw [this]
      exact ⟨i1, by simpa using i2⟩
    · rename_i hnil
      obtain ⟨d, hd, rfl⟩ := Option.map_eq_some_iff.1 ha
      have : busy shown (i :: ord) = i :: busy shown ord := by unfold busy; rw [List.filter_cons_of_pos (by simp [hnil])]
      rw [this]
      constructor
      · intro j hj
        rcases List.mem_cons.1 hj with rfl | hj
        · simp [hd]
        · exact i1 j hj
      · rw [List.map_cons, List.flatMap_cons, ← i2, hd]; rfl

/-- What a lookup gives after a restart: an item of the old cache is there as long as the wall clock has not reached its
deadline.  The old cache's clock was `δ` behind the wall clock, the new one's is `δ'` behind it. -/
def restored (d : Spec.Dict) (δ δ' t : Int) (k : Bytes) : Option Spec.Item :=
  (d k).filter fun it => it.expires = 0 ∨ t + δ' < it.expires + δ

/-- The reply of a lookup that finds this item, whatever its new CAS token. -/
def Answers (k : Bytes) (δ δ' : Int) (x : Option Spec.Item) (r : Spec.Reply) : Prop :=
  match x with
  | none => r = ⟨.notfound, []⟩
  | some it => ∃ cas, r = ⟨.found, [(k, ⟨it.value, if it.expires = 0 then 0 else it.expires + δ - δ', it.flags, cas⟩)]⟩

theorem entryStore_plain {ut un : Int} {e : FileEnt} {a : Spec.StoreArgs} (h : entryStore ut un e = some a) : Plain a ∧ a.key = e.key := by
  unfold entryStore at h
  simp only [] at h
  split at h
  · split at h
    · simp at h
    · simp only [Option.some.injEq] at h
      subst h; exact ⟨⟨rfl, rfl, rfl, rfl, rfl, rfl, rfl⟩, rfl⟩
  · simp only [Option.some.injEq] at h
    subst h; exact ⟨⟨rfl, rfl, rfl, rfl, rfl, rfl, rfl⟩, rfl⟩

/-- The block of a shard, loaded. -/
theorem mem_loadStores {z : Lz4} {lt : Nat → Int} {δ : Int} {bs : List (Bytes × Nat)} {x : Spec.StoreArgs × Int} :
    x ∈ loadStores z lt δ bs ↔ ∃ j, ∃ hj : j < bs.length, x.2 = lt j ∧ x.1 ∈ (loadBlock z (lt j + δ) bs[j].1 bs[j].2).1 := by
  unfold loadStores
  simp only [List.mem_flatMap, List.mem_map]
  constructor
  · rintro ⟨⟨b, j⟩, hb, a, ha, rfl⟩
    obtain ⟨_, hj, hbj⟩ := List.mem_zipIdx hb
    simp only [Nat.zero_add, Nat.sub_zero] at hj hbj
    exact ⟨j, hj, rfl, by simpa [hbj] using ha⟩
  · rintro ⟨j, hj, h2, h1⟩
    refine ⟨(bs[j], j), ?_, x.1, h1, by rw [← h2]⟩
    rw [List.mk_mem_zipIdx_iff_getElem?]
    simp [hj]

theorem run_length {c : Ctx} {n : Nat} {l : List HCall} {shs shs' : Shards} {rs : List Spec.Reply}
    (h : run c n l shs = .val (shs', rs)) : rs.length = l.length := by
  induction l generalizing shs rs with
  | nil =>
    simp only [run, Out.val.injEq, Prod.mk.injEq] at h
    rw [← h.2]; rfl
  | cons x l ih =>
    unfold run at h
    cases he : exec c n x.mem x.now (toOp x.call) shs with
    | val r =>
      rw [he] at h
      simp only [Out.bind] at h
      cases hr : run c n l r.shs with
      | val q =>
        rw [hr] at h
        simp only [Out.val.injEq, Prod.mk.injEq] at h
        rw [← h.2, List.length_cons, List.length_cons, ih (by rw [hr, ← h.1])]
      | _ => rw [hr] at h; simp at h
    | _ => rw [he] at h; simp [Out.bind] at h

theorem run_append {c : Ctx} {n : Nat} {a b : List HCall} {shs shs' shs'' : Shards} {rs rs' : List Spec.Reply}
    (h : run c n a shs = .val (shs', rs)) (h' : run c n b shs' = .val (shs'', rs')) :
    run c n (a ++ b) shs = .val (shs'', rs ++ rs') := by
  induction a generalizing shs rs with
  | nil =>
    simp only [run, Out.val.injEq, Prod.mk.injEq] at h
    obtain ⟨rfl, rfl⟩ := h
    exact h'
  | cons x l ih =>
    unfold run at h
    rw [List.cons_append]
    unfold run
    cases he : exec c n x.mem x.now (toOp x.call) shs with
    | val r =>
      rw [he] at h
      simp only [Out.bind] at h ⊢
      cases hr : run c n l r.shs with
      | val q =>
        rw [hr] at h
        simp only [Out.val.injEq, Prod.mk.injEq] at h
        obtain ⟨h1, rfl⟩ := h
        rw [ih (by rw [hr, ← h1])]
        rfl
      | _ => rw [hr] at h; simp at h
    | _ => rw [he] at h; simp [Out.bind] at h

/-- The store made for a saved item. -/
theorem entryStore_cases {ti δ : Int} {k : Bytes} {it : Spec.Item} (hvis : it.visible ti = true) (ht : 0 < ti)
    (hf : it.expires + δ < 2 ^ 63) {un : Int} {o : Option Spec.StoreArgs} (h : entryStore (ti + δ) un (fileEnt ti (k, it)) = o) :
    (it.expires = 0 ∧ ∃ a, o = some a ∧ Plain a ∧ a.key = k ∧ a.val = it.value ∧ a.flags = it.flags ∧ a.ttl = 0) ∨
    (ti < it.expires ∧ it.expires + δ < un ∧ o = none) ∨
    (ti < it.expires ∧ un ≤ it.expires + δ ∧
      ∃ a, o = some a ∧ Plain a ∧ a.key = k ∧ a.val = it.value ∧ a.flags = it.flags ∧ a.ttl = it.expires + δ - un) := by
  unfold Spec.Item.visible at hvis
  simp only [Bool.or_eq_true, decide_eq_true_eq] at hvis
  unfold entryStore fileEnt at h
  simp only [] at h
  rcases hvis with h0 | h1
  · left
    have hft : fileTtl ti it = 0 := by unfold fileTtl; rw [if_neg (by omega)]
    rw [hft] at h
    simp only [gt_iff_lt, Nat.lt_irrefl, if_false] at h
    exact ⟨h0, _, h.symm, ⟨rfl, rfl, rfl, rfl, rfl, rfl, rfl⟩, rfl, rfl, rfl, rfl⟩
  · right
    have hft : fileTtl ti it = (it.expires - ti).toNat := by unfold fileTtl; rw [if_pos (by omega)]
    rw [hft, if_pos (by omega)] at h
    have hm : min (ti + δ + ((it.expires - ti).toNat : Int)) (2 ^ 63 - 1) = it.expires + δ := by omega
    rw [hm] at h
    by_cases hu : it.expires + δ < un
    · left
      rw [if_pos hu] at h
      exact ⟨h1, hu, h.symm⟩
    · right
      rw [if_neg hu] at h
      exact ⟨h1, by omega, _, h.symm, ⟨rfl, rfl, rfl, rfl, rfl, rfl, rfl⟩, rfl, rfl, rfl, rfl⟩

theorem entryStore_again {ti δ δ' lj : Int} {k : Bytes} {it : Spec.Item} {a : Spec.StoreArgs} (hvis : it.visible ti = true) (ht : 0 < ti)
    (hf : it.expires + δ < 2 ^ 63) (hl : 0 < lj) (hf' : it.expires + δ - δ' < 2 ^ 63) (hne : it.expires ≠ 0 → it.expires + δ ≠ lj + δ')
    (h : entryStore (ti + δ) (lj + δ') (fileEnt ti (k, it)) = some a) :
    a.val = it.value ∧ Spec.normExp (a.asked lj) = (if it.expires = 0 then 0 else it.expires + δ - δ') ∧ a.flags = it.flags := by
  rcases entryStore_cases hvis ht hf h with ⟨h0, a', ha, hp, _, hv, hfl, htt⟩ | ⟨_, _, h0⟩ | ⟨h1, h2, a', ha, hp, _, hv, hfl, htt⟩
  · simp only [Option.some.injEq] at ha
    subst ha
    refine ⟨hv, ?_, hfl⟩
    rw [if_pos h0]
    unfold Spec.StoreArgs.asked
    rw [hp.1, htt]
    simp [Spec.normExp]
  · simp at h0
  · simp only [Option.some.injEq] at ha
    subst ha
    refine ⟨hv, ?_, hfl⟩
    have hn0 : it.expires ≠ 0 := by omega
    have := hne hn0
    rw [if_neg hn0]
    unfold Spec.StoreArgs.asked
    rw [hp.1, htt]
    rw [if_neg (by omega), if_pos (by omega)]
    have : min (lj + (it.expires + δ - (lj + δ'))) (2 ^ 63 - 1) = it.expires + δ - δ' := by omega
    rw [this]
    unfold Spec.normExp
    rw [if_pos (by omega)]

theorem entryStore_pos {ti δ un : Int} {k : Bytes} {it : Spec.Item} {a : Spec.StoreArgs} (hvis : it.visible ti = true) (ht : 0 < ti)
    (hf : it.expires + δ < 2 ^ 63) (h : entryStore (ti + δ) un (fileEnt ti (k, it)) = some a) :
    it.expires = 0 ∨ un ≤ it.expires + δ := by
  rcases entryStore_cases hvis ht hf h with ⟨h0, _⟩ | ⟨_, _, h0⟩ | ⟨h1, h2, _⟩
  · exact Or.inl h0
  · simp at h0
  · exact Or.inr h2

theorem entryStore_none {ti δ un : Int} {k : Bytes} {it : Spec.Item} (hvis : it.visible ti = true) (ht : 0 < ti)
    (hf : it.expires + δ < 2 ^ 63) (h : entryStore (ti + δ) un (fileEnt ti (k, it)) = none) :
    ti < it.expires ∧ it.expires + δ < un := by
  rcases entryStore_cases hvis ht hf h with ⟨h0, a, h1, _⟩ | ⟨h1, h2, h0⟩ | ⟨h1, h2, a, h3, _⟩
  · simp at h1
  · exact ⟨h1, h2⟩
  · simp at h3

/-- What the stores of a load leave in an empty cache, from what the save has shown. -/
theorem loaded_dict {z : Lz4} (hz : z.Good) {n : Nat} {grp : Bytes → Nat} (hgrp : ∀ k, grp k < n) {d : Spec.Dict} {word : List Nat} {clk : Nat → Int} {δ : Int}
    {shown : Nat → List (Bytes × Spec.Item)} {file : Bytes}
    (hsaves : ∀ i < n, (∀ x ∈ shown i, d.get (clk i) x.1 = some x.2 ∧ grp x.1 = i) ∧ ∀ k it, d.get (clk i) k = some it → grp k = i → (k, it) ∈ shown i)
    (hclk : ∀ i < n, 0 < clk i ∧ IsI64 (clk i) ∧ 0 ≤ clk i + δ ∧ clk i + δ < 2 ^ 63) (hword : word.Perm (List.range n))
    (hfile : fileOf z clk δ shown word = some file) (hfit : ∀ i < n, ∀ x ∈ shown i, Fits x ∧ x.2.expires + δ < 2 ^ 63)
    (hsz : ∀ i < n, ∀ d, blockData (clk i) (clk i + δ) (shown i) = some d → d.length ≤ lz4Max) :
    (readFile file).2 = true ∧
    ∀ (lt : Nat → Int) (δ' : Int),
      (∀ j, 0 < lt j ∧ IsI64 (lt j) ∧ 0 ≤ lt j + δ' ∧ lt j + δ' < 2 ^ 63) →
      (∀ i < n, ∀ x ∈ shown i, x.2.expires + δ - δ' < 2 ^ 63) →
      (∀ i < n, ∀ x ∈ shown i, x.2.expires ≠ 0 → ∀ j, x.2.expires + δ ≠ lt j + δ') →
      (∀ j, ∀ hj : j < (readFile file).1.length,
        (loadBlock z (lt j + δ') (readFile file).1[j].1 (readFile file).1[j].2).2 = true) ∧
      ∀ l : List (Spec.StoreArgs × Int), l.Perm (loadStores z lt δ' (readFile file).1) →
        (∀ x ∈ l, (storeCall x).ok ∧ ∃ j, x.2 = lt j) ∧
        ∀ {env : Spec.Env} {rs : List Spec.Reply} {tok : Nat → Nat} {sm : Spec.State}, rs.length = l.length →
          Spec.Steps env (((l.map storeCall).map HCall.timed).zip rs) ⟨fun _ => none, tok⟩ sm → ∀ (k : Bytes) (t : Int), (∀ j, lt j ≤ t) → (∀ i < n, clk i + δ ≤ t + δ') →
          (sm.dict.get t k).map (fun it => (it.value, it.expires, it.flags)) =
            (restored d δ δ' t k).map fun it => (it.value, if it.expires = 0 then 0 else it.expires + δ - δ', it.flags) := by
  -- the file
  obtain ⟨data, hdata, hfl⟩ := fileOf_blocks word hfile
  have hblt : ∀ i ∈ busy shown word, i < n := by
    intro i hi
    have := hword.mem_iff.1 (List.mem_filter.1 hi).1
    simpa using this
  have hrf : readFile file = ((busy shown word).map fun i => (z.compress (data i), (data i).length), true) := by
    unfold readFile
    have := readFile_encode hz (ds := (busy shown word).map data) (by
      intro d hd
      obtain ⟨i, hi, rfl⟩ := List.mem_map.1 hd
      exact hsz i (hblt i hi) _ (hdata i hi)) file.length (by rw [← hfl])
    rw [← hfl] at this
    rw [this, List.map_map]
    rfl
  rw [hrf]
  refine ⟨rfl, ?_⟩
  intro lt δ' hlt hfit' hne
  have hblk : ∀ i ∈ busy shown word, ∀ j, loadBlock z (lt j + δ') (z.compress (data i)) (data i).length =
      (((shown i).filterMap fun x => entryStore (clk i + δ) (lt j + δ') (fileEnt (clk i) x)), true) := by
    intro i hi j
    have hi' := hblt i hi
    obtain ⟨p, q, r, s⟩ := hclk i hi'
    exact loadBlock_save hz (by omega) r s (fun x hx => (hfit i hi' x hx).1) (hdata i hi) (hsz i hi' _ (hdata i hi))
  constructor
  · intro j hj
    simp only [List.getElem_map]
    rw [hblk _ (List.getElem_mem _)]
  intro l hl
  have hltpos : ∀ x ∈ l, ∃ j, x.2 = lt j := by
    intro x hx
    obtain ⟨j, _, h2, _⟩ := mem_loadStores.1 (hl.mem_iff.1 hx)
    exact ⟨j, h2⟩
  -- members of `l`
  have hmem : ∀ x, x ∈ l ↔ ∃ i ∈ busy shown word, ∃ j, (busy shown word)[j]? = some i ∧ x.2 = lt j ∧
      ∃ y ∈ shown i, entryStore (clk i + δ) (lt j + δ') (fileEnt (clk i) y) = some x.1 := by
    intro x
    rw [hl.mem_iff, mem_loadStores]
    constructor
    · rintro ⟨j, hj, h2, h1⟩
      have hj' : j < (busy shown word).length := by simpa using hj
      simp only [List.getElem_map] at h1
      rw [hblk _ (List.getElem_mem _)] at h1
      obtain ⟨y, hy, hye⟩ := List.mem_filterMap.1 h1
      exact ⟨(busy shown word)[j], List.getElem_mem _, j, by simp [hj'], h2, y, hy, hye⟩
    · rintro ⟨i, hi, j, hij, h2, y, hy, hye⟩
      obtain ⟨hj', hij⟩ := List.getElem?_eq_some_iff.1 hij
      refine ⟨j, by simpa using hj', h2, ?_⟩
      simp only [List.getElem_map]
      rw [hij, hblk _ hi]
      exact List.mem_filterMap.2 ⟨y, hy, hye⟩
  have hplain : ∀ x ∈ l, Plain x.1 := by
    intro x hx
    obtain ⟨i, _, j, _, _, y, _, hye⟩ := (hmem x).1 hx
    exact (entryStore_plain hye).1
  refine ⟨?_, ?_⟩
  · intro y hy
    obtain ⟨i, hi, j, _, hyj, w, hw, hye⟩ := (hmem y).1 hy
    obtain ⟨p, q, r, s⟩ := hlt j
    refine ⟨⟨by simp only [storeCall]; omega, by simp only [storeCall]; rw [hyj]; exact q, by intro _ _; rfl, ?_⟩, j, hyj⟩
    refine ⟨?_, fun _ => rfl⟩
    unfold entryStore at hye
    simp only [] at hye
    unfold IsI64
    split at hye
    · split at hye
      · simp at hye
      · simp only [Option.some.injEq] at hye
        rw [← hye]
        simp only []
        omega
    · simp only [Option.some.injEq] at hye
      rw [← hye]
      simp only []
      omega
  intro env rs tok sm hlen0 hsm k t hltt hclt
  -- the dictionary after the stores
  have hdict := steps_stores l hplain hlen0 hsm k
  -- the shard of the key
  have hi : grp k < n := hgrp k
  obtain ⟨hsh1, hsh2⟩ := hsaves _ hi
  have hkeys : ∀ x ∈ l, x.1.key = k → ∃ j, (busy shown word)[j]? = some (grp k) ∧ x.2 = lt j ∧
      ∃ it, (k, it) ∈ shown (grp k) ∧ entryStore (clk (grp k) + δ) (lt j + δ') (fileEnt (clk (grp k)) (k, it)) = some x.1 := by
    intro x hx hk
    obtain ⟨i, hib, j, hij, hxj, y, hy, hye⟩ := (hmem x).1 hx
    have hyk : y.1 = k := by rw [← hk, (entryStore_plain hye).2]; rfl
    have hgi := ((hsaves i (hblt i hib)).1 y hy).2
    rw [hyk] at hgi
    subst hgi
    obtain ⟨yk, yi⟩ := y
    simp only at hyk
    subst hyk
    exact ⟨j, hij, hxj, yi, hy, hye⟩
  -- the item stored again
  have hagain : ∀ x ∈ l, x.1.key = k → ∃ it, d k = some it ∧
      x.1.val = it.value ∧ Spec.normExp (x.1.asked x.2) = (if it.expires = 0 then 0 else it.expires + δ - δ') ∧ x.1.flags = it.flags := by
    intro x hx hk
    obtain ⟨j, _, hxj, it, hit, hye⟩ := hkeys x hx hk
    obtain ⟨hg, _⟩ := hsh1 _ hit
    obtain ⟨hd, hvis⟩ := Option.filter_eq_some_iff.1 hg
    obtain ⟨hfx, hfx2⟩ := hfit _ hi _ hit
    have hcp := hclk _ hi
    have hlj := hlt j
    refine ⟨it, hd, ?_⟩
    have hexp := hfit' _ hi _ hit
    have hnej := hne _ hi _ hit
    simp only at hfx2 hexp hnej hd hvis
    rw [hxj]
    exact entryStore_again hvis hcp.1 hfx2 hlj.1 hexp (fun h => hnej h j) hye
  cases hdk : d k with
  | none =>
    have h0 : sm.dict k = none := by
      rw [hdict.1]
      intro x hx hk
      obtain ⟨it, h, _⟩ := hagain x hx hk
      rw [hdk] at h; simp at h
    unfold Spec.Dict.get
    rw [h0]
    unfold restored
    rw [hdk]
    rfl
  | some it =>
    by_cases hex : ∃ x ∈ l, x.1.key = k
    · obtain ⟨cas, hc⟩ := hdict.2 it.value (if it.expires = 0 then 0 else it.expires + δ - δ') it.flags (by
        intro x hx hk
        obtain ⟨it', h, h'⟩ := hagain x hx hk
        rw [hdk] at h
        simp only [Option.some.injEq] at h
        subst h
        exact h') (Or.inl hex)
      have hpos : it.expires = 0 ∨ 0 < it.expires + δ - δ' := by
        obtain ⟨x, hx, hk⟩ := hex
        obtain ⟨j, _, hxj, it', hit, hye⟩ := hkeys x hx hk
        obtain ⟨hg, _⟩ := hsh1 _ hit
        obtain ⟨hd, hvis⟩ := Option.filter_eq_some_iff.1 hg
        simp only at hd hvis
        rw [hdk] at hd
        simp only [Option.some.injEq] at hd
        subst hd
        have := entryStore_pos hvis (hclk _ hi).1 (hfit _ hi _ hit).2 hye
        have := (hlt j).1
        omega
      unfold Spec.Dict.get
      rw [hc]
      unfold restored
      rw [hdk]
      by_cases hz0 : it.expires = 0
      · simp [Option.filter, Spec.Item.visible, hz0]
      · by_cases hlt' : t + δ' < it.expires + δ
        · have h3 : t < it.expires + δ - δ' := by omega
          simp [Option.filter, Spec.Item.visible, hz0, hlt', h3]
        · have h3 : ¬ t < it.expires + δ - δ' := by omega
          have h4 : it.expires + δ - δ' ≠ 0 := by omega
          simp [Option.filter, Spec.Item.visible, hz0, hlt', h3, h4]
    · have h0 : sm.dict k = none := by
        rw [hdict.1]
        intro x hx hk
        exact hex ⟨x, hx, hk⟩
      unfold Spec.Dict.get
      rw [h0]
      have hgone : ¬ (it.expires = 0 ∨ t + δ' < it.expires + δ) := by
        intro hlive
        by_cases hvis : it.visible (clk (grp k)) = true
        · have hin := hsh2 k it (by unfold Spec.Dict.get; rw [hdk]; simp [Option.filter, hvis]) rfl
          have hib : grp k ∈ busy shown word := by
            unfold busy
            rw [List.mem_filter]
            refine ⟨hword.mem_iff.2 (by simpa using hi), ?_⟩
            simp only [ne_eq, decide_not, Bool.not_eq_eq_eq_not, Bool.not_true, decide_eq_false_iff_not]
            intro h; rw [h] at hin; simp at hin
          obtain ⟨j, hj, hij⟩ := List.mem_iff_getElem.1 hib
          cases hes : entryStore (clk (grp k) + δ) (lt j + δ') (fileEnt (clk (grp k)) (k, it)) with
          | some a =>
            exact hex ⟨(a, lt j), (hmem _).2 ⟨_, hib, j, by simp [hj, hij], rfl, (k, it), hin, hes⟩, (entryStore_plain hes).2⟩
          | none =>
            obtain ⟨h1, h2⟩ := entryStore_none hvis (hclk _ hi).1 (hfit _ hi _ hin).2 hes
            have := hltt j
            have := (hclk _ hi).1
            omega
        · have := hclt _ hi
          unfold Spec.Item.visible at hvis
          simp at hvis
          omega
      unfold restored
      rw [hdk]
      simp [Option.filter, hgone]

/-- **C28** (`_partial`: no item's deadline is the very wall-clock time at which its block is loaded, see
`deadline_at_load_time_never_expires`).

A cache with any history is saved shard by shard — in any order `ord`, its blocks written in any order `word` — while nobody
changes it.  Then the file loads without an error, into a new cache with any hash function and number of shards, its stores
made in any order `l`; and afterwards a lookup finds exactly the items whose wall-clock deadline has not passed, with their
value, flags and deadline.

Clocks: in each process the wall clock minus the monotonic clock is constant (`δ`, `δ'`); all allocations succeed; sizes fit
the format and LZ4 (`hfit`, `hsz`). -/
theorem save_load_restores_partial {z : Lz4} (hz : z.Good) {c c' : Ctx} (hv : c.Valid) (hv' : c'.Valid) {n n' : Nat} (hn : 0 < n)
    (hn' : 0 < n') {hist : List HCall} (hok : ∀ x ∈ hist, x.ok)
    {shs shs1 : Shards} {rs rs1 : List Spec.Reply} {ord word : List Nat} {clk : Nat → Int} {δ : Int}
    {shown : Nat → List (Bytes × Spec.Item)} {file : Bytes}
    (hmono : (hist ++ ord.map fun i => saveCall i (clk i)).Pairwise fun a b => a.now ≤ b.now)
    (hclk : ∀ i < n, 0 < clk i ∧ IsI64 (clk i) ∧ 0 ≤ clk i + δ ∧ clk i + δ < 2 ^ 63)
    (hrun : run c n hist (newCache c) = .val (shs, rs))
    (hord : ord.Perm (List.range n)) (hword : word.Perm (List.range n))
    (hsave : run c n (ord.map fun i => saveCall i (clk i)) shs = .val (shs1, rs1)) (hnw : NoWrap n shs1)
    (hshown : rs1.map (·.shown) = ord.map shown)
    (hfile : fileOf z clk δ shown word = some file)
    (hfit : ∀ i < n, ∀ x ∈ shown i, Fits x ∧ x.2.expires + δ < 2 ^ 63)
    (hsz : ∀ i < n, ∀ d, blockData (clk i) (clk i + δ) (shown i) = some d → d.length ≤ lz4Max) :
    ∃ st, Spec.Steps ⟨c.usecas, c.noevict, shardIdx c n⟩ ((hist.map HCall.timed).zip rs) ⟨fun _ => none, fun _ => 1⟩ st ∧
    (readFile file).2 = true ∧
    ∀ (lt : Nat → Int) (δ' : Int),
      (∀ j, 0 < lt j ∧ IsI64 (lt j) ∧ 0 ≤ lt j + δ' ∧ lt j + δ' < 2 ^ 63) →
      (∀ i < n, ∀ x ∈ shown i, x.2.expires + δ - δ' < 2 ^ 63) →
      (∀ i < n, ∀ x ∈ shown i, x.2.expires ≠ 0 → ∀ j, x.2.expires + δ ≠ lt j + δ') →
      (∀ j, ∀ hj : j < (readFile file).1.length,
        (loadBlock z (lt j + δ') (readFile file).1[j].1 (readFile file).1[j].2).2 = true) ∧
      ∀ l : List (Spec.StoreArgs × Int), l.Perm (loadStores z lt δ' (readFile file).1) →
        l.Pairwise (fun a b => a.2 ≤ b.2) →
        ∀ (k : Bytes) (t : Int), IsI64 t → (∀ j, lt j ≤ t) → (∀ i < n, clk i + δ ≤ t + δ') →
          (∃ shs2 rs2, run c' n' (l.map storeCall ++ [getCall k t]) (newCache c') = .val (shs2, rs2) ∧
            (NoWrap n' shs2 → ∃ rs0 r, rs2 = rs0 ++ [r] ∧ Answers k δ δ' (restored st.dict δ δ' t k) r)) ∨
          run c' n' (l.map storeCall ++ [getCall k t]) (newCache c') = .abort true := by
  -- the old cache
  have hordlt : ∀ i ∈ ord, i < n := fun i hi => by simpa using hord.mem_iff.1 hi
  have hsok : ∀ x ∈ hist ++ ord.map (fun i => saveCall i (clk i)), x.ok := by
    intro x hx
    rcases List.mem_append.1 hx with hx | hx
    · exact hok x hx
    · obtain ⟨i, hi, rfl⟩ := List.mem_map.1 hx
      obtain ⟨p, q, _, _⟩ := hclk i (hordlt i hi)
      exact ⟨p, q, by intro _ _; rfl, trivial⟩
  have hrlen := run_length hrun
  have hboth := run_append hrun hsave
  rcases run_refines hv hn _ (newCache c) (allInv_new hv n) hsok hmono with ⟨shs', rs', h1, _, _, hsp⟩ | hab
  swap
  · rw [hab] at hboth; simp at hboth
  rw [hboth] at h1
  simp only [Out.val.injEq, Prod.mk.injEq] at h1
  obtain ⟨rfl, rfl⟩ := h1
  obtain ⟨_, hsp⟩ := hsp hnw
  obtain ⟨st1, _, _, _, _, _, hsteps1⟩ := hsp 0 _ (fun x hx => by have := (hsok x hx).1; omega) (R_new c n 0)
  rw [List.map_append, List.zip_append (by simp [hrlen])] at hsteps1
  obtain ⟨st, hsteps, hst1⟩ := steps_append hsteps1
  refine ⟨st, hsteps, ?_⟩
  -- what the save shows
  have hsaves : ∀ i < n, (∀ x ∈ shown i, st.dict.get (clk i) x.1 = some x.2 ∧ shardIdx c n x.1 = i) ∧
      ∀ k it, st.dict.get (clk i) k = some it → shardIdx c n k = i → (k, it) ∈ shown i := by
    have := steps_saves ord clk shown hshown hst1
    intro i hi
    exact this i (hord.mem_iff.2 (by simpa using hi))
  obtain ⟨g1, g2⟩ := loaded_dict hz (shardIdx_lt c hn) hsaves hclk hword hfile hfit hsz
  refine ⟨g1, fun lt δ' hlt hfit' hne => ?_⟩
  obtain ⟨g3, g4⟩ := g2 lt δ' hlt hfit' hne
  refine ⟨g3, fun l hl hlm k t ht64 hltt hclt => ?_⟩
  obtain ⟨g5, g6⟩ := g4 l hl
  have hlok : ∀ x ∈ l.map storeCall ++ [getCall k t], x.ok := by
    intro x hx
    rcases List.mem_append.1 hx with hx | hx
    · obtain ⟨y, hy, rfl⟩ := List.mem_map.1 hx
      exact (g5 y hy).1
    · rw [List.mem_singleton.1 hx]
      have := hltt 0
      have := (hlt 0).1
      exact ⟨by simp only [getCall]; omega, ht64, by intro _ _; rfl, trivial⟩
  have hlmono : (l.map storeCall ++ [getCall k t]).Pairwise fun a b => a.now ≤ b.now := by
    rw [List.pairwise_append]
    refine ⟨by rw [List.pairwise_map]; exact hlm, by simp, ?_⟩
    intro a ha b hb
    rw [List.mem_singleton.1 hb]
    obtain ⟨y, hy, rfl⟩ := List.mem_map.1 ha
    obtain ⟨j, hj⟩ := (g5 y hy).2
    simp only [storeCall, getCall]
    rw [hj]; exact hltt j
  rcases run_refines hv' hn' _ (newCache c') (allInv_new hv' n') hlok hlmono with ⟨shs2, rs2, h1, h2, _, hsp⟩ | hab
  swap
  · right; exact hab
  left
  refine ⟨shs2, rs2, h1, ?_⟩
  intro hnw2
  obtain ⟨_, hsp⟩ := hsp hnw2
  obtain ⟨st2, _, _, _, _, _, hst2⟩ := hsp 0 _ (fun x hx => by have := (hlok x hx).1; omega) (R_new c' n' 0)
  rcases List.eq_nil_or_concat rs2 with hnil | ⟨rs0, r, hrs⟩
  · rw [hnil] at h2; simp at h2
  rw [List.concat_eq_append] at hrs
  subst hrs
  have hlen0 : rs0.length = l.length := by simpa using h2
  rw [List.map_append, List.zip_append (by simp [hlen0])] at hst2
  obtain ⟨sm, hsm, hget⟩ := steps_append hst2
  refine ⟨rs0, r, rfl, ?_⟩
  have hd := g6 hlen0 hsm k t hltt hclt
  simp only [List.map_cons, List.map_nil, List.zip_cons_cons, List.zip_nil_right] at hget
  cases hget with
  | cons hg _ =>
    simp only [getCall, HCall.timed, Spec.Step] at hg
    cases hx : restored st.dict δ δ' t k with
    | none =>
      rw [hx, Option.map_none, Option.map_eq_none_iff] at hd
      rw [hd] at hg
      exact hg.1
    | some it =>
      rw [hx, Option.map_some, Option.map_eq_some_iff] at hd
      obtain ⟨it', hi, he⟩ := hd
      rw [hi] at hg
      simp only [Prod.mk.injEq] at he
      obtain ⟨e1, e2, e3⟩ := he
      refine ⟨it'.cas, ?_⟩
      rw [hg.1, ← e1, ← e2, ← e3]

/-! ### Concrete cases -/

namespace Example

open Verif.Cache.Example (ctx put)

/-- Two keys in two shards, one living for 50 units. -/
def hist : List HCall := [⟨put [1] [10] 50, 100, okMem, false⟩, ⟨put [2] [20, 21] 0, 100, okMem, false⟩]

def clk (i : Nat) : Int := 110 + i

def shown : Nat → List (Bytes × Spec.Item)
  | 0 => [([1], ⟨[10], 150, 7, 2⟩)]
  | 1 => [([2], ⟨[20, 21], 0, 7, 2⟩)]
  | _ => []

def saves : List HCall := [0, 1].map fun i => saveCall i (clk i)

/-- The file: shard 1 was written first. -/
def file : Bytes := (fileOf idCodec clk 1000 shown [1, 0]).getD []

theorem hist_ok : ∀ x ∈ hist, x.ok := by
  intro x hx
  unfold hist at hx
  simp only [List.mem_cons, List.not_mem_nil, or_false] at hx
  rcases hx with rfl | rfl <;> simp [HCall.ok, CallOk, okMem, put, IsI64]

theorem saved : ∃ shs rs shs1 rs1, run ctx 2 hist (newCache ctx) = .val (shs, rs) ∧ run ctx 2 saves shs = .val (shs1, rs1) ∧
    NoWrap 2 shs1 ∧ rs1.map (·.shown) = [0, 1].map shown := by
  have h : ((run ctx 2 hist (newCache ctx)).bind fun q => (run ctx 2 saves q.1).bind fun q1 => .val (q, q1)).test
      (fun (z : (Shards × List Spec.Reply) × (Shards × List Spec.Reply)) =>
        noWrapB 2 z.2.1 = true ∧ z.2.2.map (·.shown) = [0, 1].map shown) = true := by decide +kernel
  obtain ⟨z, hz, h1, h2⟩ := Out.of_test h
  obtain ⟨q, hq, hz⟩ := out_bind_val hz
  obtain ⟨q1, hq1, hz⟩ := out_bind_val hz
  simp only [Out.val.injEq] at hz
  subst hz
  exact ⟨q.1, q.2, q1.1, q1.2, hq, hq1, noWrapB_iff.1 h1, h2⟩

theorem file_made : fileOf idCodec clk 1000 shown [1, 0] = some file := by
  unfold file
  have : (fileOf idCodec clk 1000 shown [1, 0]).isSome = true := by decide +kernel
  obtain ⟨x, hx⟩ := Option.isSome_iff_exists.1 this
  rw [hx]; rfl

/-- The hypotheses of `save_load_restores_partial` on the old cache are met. -/
example : ctx.Valid ∧ (∀ x ∈ hist, x.ok) ∧ ((hist ++ [0, 1].map fun i => saveCall i (clk i)).Pairwise fun a b => a.now ≤ b.now) ∧
    (∀ i < 2, 0 < clk i ∧ IsI64 (clk i) ∧ 0 ≤ clk i + 1000 ∧ clk i + 1000 < 2 ^ 63) ∧
    ([0, 1].Perm (List.range 2)) ∧ ([1, 0].Perm (List.range 2)) ∧
    (∀ i < 2, ∀ x ∈ shown i, Fits x ∧ x.2.expires + 1000 < 2 ^ 63) ∧
    (∀ i < 2, ∀ d, blockData (clk i) (clk i + 1000) (shown i) = some d → d.length ≤ lz4Max) := by
  refine ⟨⟨by decide, by decide⟩, hist_ok, by decide, ?_, by decide, by decide, ?_, ?_⟩
  · intro i hi
    unfold clk IsI64
    omega
  · intro i hi x hx
    rcases i with _ | _ | i
    · simp only [shown, List.mem_singleton] at hx
      subst hx; simp [Fits]
    · simp only [shown, List.mem_singleton] at hx
      subst hx; simp [Fits]
    · omega
  · have : ∀ i < 2, ((blockData (clk i) (clk i + 1000) (shown i)).all fun d => decide (d.length ≤ lz4Max)) = true := by decide +kernel
    intro i hi d hd
    have := this i hi
    rw [hd] at this
    simpa using this

/-- The stores of a load at monotonic time 20 and wall clock 1130. -/
def stores : List (Spec.StoreArgs × Int) := loadStores idCodec (fun _ => 20) 1110 (readFile file).1

/-- Loading at 20 (wall clock 1130) works, and key `[1]`, whose deadline is wall clock 1150, has expiry 40 on the new clock. -/
example : (readFile file).2 = true ∧ stores.length = 2 ∧
    (run ctx 2 (stores.map storeCall ++ [getCall [1] 39, getCall [1] 40, getCall [2] 1000]) (newCache ctx)).test
      (fun (z : Shards × List Spec.Reply) => noWrapB 2 z.1 = true ∧ z.2.map (·.shown) =
        [[], [], [([1], ⟨[10], 40, 7, 2⟩)], [], [([2], ⟨[20, 21], 0, 7, 2⟩)]]) = true := by decide +kernel

/-- Stores of a load at exactly the deadline of key `[1]`. -/
def lateStores : List (Spec.StoreArgs × Int) := loadStores idCodec (fun _ => 40) 1110 (readFile file).1

end Example

/-- **C28, negation.**  If the wall clock at load time is exactly the deadline of an item, the item comes back with no expiry at
all: here key `[1]`, saved with 40 units to live, is loaded exactly 40 units later and is still found 10^15 units later. -/
theorem deadline_at_load_time_never_expires :
    ∃ shs rs, run Verif.Cache.Example.ctx 2 (Example.lateStores.map storeCall ++ [getCall [1] (10 ^ 15)]) (newCache Verif.Cache.Example.ctx) = .val (shs, rs) ∧
      NoWrap 2 shs ∧ rs.getLast? = some ⟨.found, [([1], ⟨[10], 0, 7, 2⟩)]⟩ := by
  have h : (run Verif.Cache.Example.ctx 2 (Example.lateStores.map storeCall ++ [getCall [1] (10 ^ 15)]) (newCache Verif.Cache.Example.ctx)).test
      (fun (z : Shards × List Spec.Reply) => noWrapB 2 z.1 = true ∧ z.2.getLast? = some ⟨.found, [([1], ⟨[10], 0, 7, 2⟩)]⟩) = true := by
    decide +kernel
  obtain ⟨z, hz, h1, h2⟩ := Out.of_test h
  exact ⟨z.1, z.2, hz, noWrapB_iff.1 h1, h2⟩

end Verif.Save
