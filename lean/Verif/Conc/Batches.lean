import Mathlib.Tactic.Common
import Mathlib.Data.List.Nodup
import Mathlib.Logic.Function.Basic
import Mathlib.Data.List.Range
import Mathlib.Data.List.Perm.Subperm

/-!
C127: the shards of a batch are given back at its end.  The list of locked shards of a batch goes through the shards themselves, and with `usethreadbatch` all batches
of a thread are the same piece of memory.
-/

namespace Verif.Conc.Batches

open Function

/-! ### Specification -/

/-- What users of the library do with batches: begin one (the call returned `b`), work on a shard through it, end it. -/
inductive Use where
  | beg (b : Nat)
  | acc (b i : Nat)
  | fin (b : Nat)
deriving DecidableEq

/-- Legal uses, and the batches not yet ended: batches are not null, work is done through a batch between its begin and its end, on one of `n` shards; each begin is followed by one end.
Unless `nest`, a batch that is not yet ended is not begun again; this is so of batches that are allocated, and of a thread that uses one batch at a time. -/
inductive Legal (nest : Bool) (n : Nat) : List Use → List Nat → Prop
  | none : Legal nest n [] []
  | beg {us : List Use} {l : List Nat} {b : Nat} : Legal nest n us l → b ≠ 0 → (nest = true ∨ b ∉ l) → Legal nest n (us ++ [.beg b]) (b :: l)
  | acc {us : List Use} {l : List Nat} {b i : Nat} : Legal nest n us l → b ∈ l → i < n → Legal nest n (us ++ [.acc b i]) l
  | fin {us : List Use} {l : List Nat} {b : Nat} : Legal nest n us l → b ∈ l → Legal nest n (us ++ [.fin b]) (l.erase b)

/-! ### Model -/

/-- The fields `lock` and `next` of shards (`struct shard`, `/repo/src/pogocache.c:699-705`) and the field `shard` of the batch at an address (`struct batch`,
`/repo/src/pogocache.c:711-715`); `none` is the null pointer. -/
structure St where
  lock : Nat → Nat
  next : Nat → Option Nat
  head : Nat → Option Nat

/-- The start: no shard is locked. -/
def start : St := ⟨fun _ => 0, fun _ => none, fun _ => none⟩

/-- The loop of `pogocache_end`, `/repo/src/pogocache.c:1277-1283`.  `none`: it goes on beyond the given number of turns. -/
def walk : Nat → Option Nat → St → Option St
  | _, none, s => some s
  | 0, some _, _ => none
  | f + 1, some i, s => walk f (s.next i) { s with next := update s.next i none, lock := update s.lock i 0 }

/-- One use: `pogocache_begin`, `/repo/src/pogocache.c:1258-1273`; `lock` with a batch, `/repo/src/pogocache.c:1289-1303` (`none`: it waits for somebody else);
`pogocache_end`, `/repo/src/pogocache.c:1275-1287`. -/
def step (n : Nat) (s : St) : Use → Option St
  | .beg b => some { s with head := update s.head b none }
  | .acc b i => if s.lock i = 0 then some ⟨update s.lock i b, update s.next i (s.head b), update s.head b (some i)⟩ else if s.lock i = b then some s else none
  | .fin b => walk (n + 1) (s.head b) s

/-- Uses one after the other. -/
def run (n : Nat) (us : List Use) : Option St := us.foldlM (step n) start

/-! ### Proofs -/

/-- The list that starts here. -/
def Chain (next : Nat → Option Nat) : Option Nat → List Nat → Prop
  | h, [] => h = none
  | h, i :: l => h = some i ∧ Chain next (next i) l

theorem chain_congr {next next' : Nat → Option Nat} : ∀ {l : List Nat} {h : Option Nat}, (∀ i ∈ l, next' i = next i) → Chain next h l → Chain next' h l
  | [], _, _, hc => hc
  | i :: l, _, he, hc => ⟨hc.1, by rw [he i (by simp)]; exact chain_congr (fun j hj => he j (by simp [hj])) hc.2⟩

theorem walk_chain : ∀ {l : List Nat} {f : Nat} {h : Option Nat} {s : St}, Chain s.next h l → l.Nodup → l.length ≤ f →
    ∃ s', walk f h s = some s' ∧ (∀ i, s'.lock i = if i ∈ l then 0 else s.lock i) ∧ (∀ i, i ∉ l → s'.next i = s.next i) ∧ s'.head = s.head
  | [], f, h, s, hc, _, _ => by
    have hc' : h = none := hc
    subst hc'
    refine ⟨s, ?_, by simp, fun _ _ => rfl, rfl⟩
    cases f <;> rfl
  | i :: l, f, h, s, hc, hn, hf => by
    obtain ⟨rfl, hc⟩ := hc
    obtain ⟨f, rfl⟩ : ∃ g, f = g + 1 := ⟨f - 1, by simp at hf; omega⟩
    obtain ⟨hi, hn⟩ := List.nodup_cons.1 hn
    obtain ⟨s', h1, h2, h3, h4⟩ := walk_chain (l := l) (f := f) (h := s.next i) (s := { s with next := update s.next i none, lock := update s.lock i 0 })
      (chain_congr (fun j hj => by simp only []; rw [update_of_ne]; rintro rfl; exact hi hj) hc) hn (by simpa using hf)
    refine ⟨s', h1, fun j => ?_, fun j hj => ?_, h4⟩
    · rw [h2]
      by_cases hj : j = i
      · subst hj; simp
      · simp [hj]
    · rw [h3 j (fun hc => hj (by simp [hc]))]
      simp only []
      rw [update_of_ne]
      rintro rfl
      simp at hj

/-- The lists of all batches not yet ended are in order. -/
structure Ok (n : Nat) (us : List Use) (l : List Nat) (s : St) : Prop where
  chain : ∀ b ∈ l, ∃ c, Chain s.next (s.head b) c ∧ c.Nodup ∧ ∀ i, i ∈ c ↔ s.lock i = b
  mine : ∀ i, s.lock i ≠ 0 → s.lock i ∈ l ∧ i < n ∧ .acc (s.lock i) i ∈ us
  pos : 0 ∉ l
  nodup : l.Nodup

/-- The end of a batch. -/
theorem ok_fin {n : Nat} {us : List Use} {l : List Nat} {s : St} (h : Ok n us l s) {b : Nat} (hb : b ∈ l) :
    ∃ s', step n s (.fin b) = some s' ∧ (∀ i, s'.lock i = if s.lock i = b then 0 else s.lock i) ∧ Ok n (us ++ [.fin b]) (l.erase b) s' := by
  have hb0 : b ≠ 0 := fun hc => h.pos (hc ▸ hb)
  obtain ⟨c, h1, h2, h3⟩ := h.chain b hb
  have hlen : c.length ≤ n + 1 := by
    have hsub : c ⊆ List.range n := fun i hi => List.mem_range.2 (h.mine i (by rw [(h3 i).1 hi]; exact hb0)).2.1
    have := (h2.subperm hsub).length_le
    rw [List.length_range] at this
    omega
  obtain ⟨s', g1, g2, g3, g4⟩ := walk_chain h1 h2 hlen
  have g5 : ∀ i, s'.lock i = if s.lock i = b then 0 else s.lock i := by
    intro i
    rw [g2]
    simp only [h3]
  refine ⟨s', g1, g5, ⟨fun b' hb' => ?_, fun i hi => ?_, fun hc => h.pos (List.mem_of_mem_erase hc), h.nodup.erase b⟩⟩
  · obtain ⟨hne, hb'⟩ := (h.nodup.mem_erase_iff).1 hb'
    obtain ⟨c', k1, k2, k3⟩ := h.chain b' hb'
    refine ⟨c', ?_, k2, fun i => ?_⟩
    · rw [g4]
      refine chain_congr (fun i hi => g3 i fun hc => hne ?_) k1
      rw [← (k3 i).1 hi, (h3 i).1 hc]
    · rw [k3, g5]
      have : b' ≠ 0 := fun hc => h.pos (hc ▸ hb')
      split
      · rename_i he
        rw [he]
        exact ⟨fun hc => absurd hc.symm hne, fun hc => absurd hc.symm this⟩
      · rfl
  · rw [g5] at hi ⊢
    split at hi
    · exact absurd rfl hi
    · rename_i hne
      rw [if_neg hne]
      obtain ⟨k1, k2, k3⟩ := h.mine i hi
      exact ⟨(h.nodup.mem_erase_iff).2 ⟨hne, k1⟩, k2, by simp [k3]⟩

theorem ok_run {n : Nat} {us : List Use} {l : List Nat} (h : Legal false n us l) : ∀ {s : St}, run n us = some s → Ok n us l s := by
  have split : ∀ {us : List Use} {u : Use} {s : St}, run n (us ++ [u]) = some s → ∃ s0, run n us = some s0 ∧ step n s0 u = some s := by
    intro us u s hr
    unfold run at hr ⊢
    rw [List.foldlM_append] at hr
    obtain ⟨s0, h0, h1⟩ := Option.bind_eq_some_iff.1 hr
    refine ⟨s0, h0, ?_⟩
    simpa using h1
  induction h with
  | none =>
    intro s hs
    cases hs
    exact ⟨by simp, by simp [start], by simp, .nil⟩
  | @beg us l b _ hb hf ih =>
    intro s hs
    obtain ⟨s0, h0, h1⟩ := split hs
    have k := ih h0
    simp only [step, Option.some.injEq] at h1
    subst h1
    have hbl : b ∉ l := by simpa using hf
    refine ⟨fun b' hb' => ?_, fun i hi => ?_, fun hc => ?_, List.nodup_cons.2 ⟨hbl, k.nodup⟩⟩
    · rcases List.mem_cons.1 hb' with rfl | hb'
      · refine ⟨[], by simp [Chain], .nil, fun i => ⟨by simp, fun hc => ?_⟩⟩
        simp only [] at hc
        exact absurd (hc ▸ (k.mine i (hc ▸ hb)).1) hbl
      · have hne : b' ≠ b := fun hc => hbl (hc ▸ hb')
        simp only [update_of_ne hne]
        exact k.chain b' hb'
    · obtain ⟨k1, k2, k3⟩ := k.mine i hi
      exact ⟨by simp [k1], k2, by simp [k3]⟩
    · rcases List.mem_cons.1 hc with hc | hc
      · exact hb hc.symm
      · exact k.pos hc
  | @acc us l b i _ hb hi ih =>
    intro s hs
    obtain ⟨s0, h0, h1⟩ := split hs
    have k := ih h0
    simp only [step] at h1
    by_cases hl : s0.lock i = 0
    · rw [if_pos hl] at h1
      simp only [Option.some.injEq] at h1
      subst h1
      have hb0 : b ≠ 0 := fun hc => k.pos (hc ▸ hb)
      have hni : ∀ {b' : Nat} {c : List Nat}, b' ∈ l → (∀ j, j ∈ c ↔ s0.lock j = b') → i ∉ c := by
        intro b' c hb' h3 hc
        exact k.pos (by rw [← hl, (h3 i).1 hc]; exact hb')
      refine ⟨fun b' hb' => ?_, fun j hj => ?_, k.pos, k.nodup⟩
      · obtain ⟨c, k1, k2, k3⟩ := k.chain b' hb'
        have hic := hni hb' k3
        have hc' : Chain (update s0.next i (s0.head b)) (s0.head b') c := chain_congr (fun j hj => by rw [update_of_ne]; rintro rfl; exact hic hj) k1
        by_cases hbb : b' = b
        · subst hbb
          refine ⟨i :: c, ?_, List.nodup_cons.2 ⟨hic, k2⟩, fun j => ?_⟩
          · simp only [Chain, update_self, true_and]
            exact hc'
          · by_cases hji : j = i
            · subst hji; simp
            · simp [hji, k3]
        · refine ⟨c, by simpa only [update_of_ne hbb] using hc', k2, fun j => ?_⟩
          by_cases hji : j = i
          · subst hji
            simp only [update_self]
            exact ⟨fun hc => absurd hc hic, fun hc => absurd hc.symm hbb⟩
          · simp [hji, k3]
      · by_cases hji : j = i
        · subst hji
          simp [hb, hi]
        · simp only [update_of_ne hji] at hj ⊢
          obtain ⟨k1, k2, k3⟩ := k.mine j hj
          exact ⟨k1, k2, by simp [k3]⟩
    · rw [if_neg hl] at h1
      by_cases hlb : s0.lock i = b
      · rw [if_pos hlb] at h1
        cases h1
        exact ⟨k.chain, fun j hj => by obtain ⟨k1, k2, k3⟩ := k.mine j hj; exact ⟨k1, k2, by simp [k3]⟩, k.pos, k.nodup⟩
      · rw [if_neg hlb] at h1
        cases h1
  | @fin us l b _ hb ih =>
    intro s hs
    obtain ⟨s0, h0, h1⟩ := split hs
    obtain ⟨s', g1, _, g2⟩ := ok_fin (ih h0) hb
    rw [g1] at h1
    cases h1
    exact g2

/-- **C127** (`_partial`: if no batch is begun again before its end; otherwise it is false, `nested_never_given_back`).  Any number of batches, of any threads, used in any order: a shard that is locked
is locked by a batch that has worked on it and is not yet ended; so when all batches are ended, no shard is locked. -/
theorem given_back_partial {n : Nat} {us : List Use} {l : List Nat} (h : Legal false n us l) {s : St} (hr : run n us = some s) :
    (∀ i, s.lock i ≠ 0 → s.lock i ∈ l ∧ .acc (s.lock i) i ∈ us) ∧ (l = [] → ∀ i, s.lock i = 0) := by
  have k := ok_run h hr
  refine ⟨fun i hi => ⟨(k.mine i hi).1, (k.mine i hi).2.2⟩, fun hl i => ?_⟩
  by_contra hc
  have := (k.mine i hc).1
  rw [hl] at this
  cases this

/-- **C127** (`_partial`, as above).  The end of a batch never hangs; it gives back just the shards of this batch, and the next begin of it is legal. -/
theorem end_frees_partial {n : Nat} {us : List Use} {l : List Nat} (h : Legal false n us l) {s : St} (hr : run n us = some s) {b : Nat} (hb : b ∈ l) :
    ∃ s', run n (us ++ [.fin b]) = some s' ∧ (∀ i, s'.lock i = if s.lock i = b then 0 else s.lock i) ∧ Legal false n (us ++ [.fin b, .beg b]) (b :: l.erase b) := by
  have k := ok_run h hr
  obtain ⟨s', g1, g2, _⟩ := ok_fin k hb
  refine ⟨s', ?_, g2, ?_⟩
  · unfold run at hr ⊢
    rw [List.foldlM_append, hr]
    simpa using g1
  · have := Legal.beg (.fin h hb) (b := b) (fun hc => k.pos (hc ▸ hb)) (Or.inr k.nodup.not_mem_erase)
    simpa using this

/-- **C127, negation.**  With `usethreadbatch` (as the server has it; `/repo/src/pogocache.h:71` calls it non-reentrant), a thread that begins a second batch before the end of the first gets the same one, whose list is emptied: the shards locked before
are never given back.  All batches are ended, but shard `i` is locked, and everybody else who wants it waits for ever. -/
theorem nested_never_given_back {n i b : Nat} (hi : i < n) (hb : b ≠ 0) :
    Legal true n [.beg b, .acc b i, .beg b, .fin b, .fin b] [] ∧ ∃ s, run n [.beg b, .acc b i, .beg b, .fin b, .fin b] = some s ∧ s.lock i = b ∧
      ∀ b', b' ≠ b → step n s (.acc b' i) = none := by
  constructor
  · have h1 : Legal true n [.beg b] [b] := Legal.beg .none hb (Or.inl rfl)
    have h2 : Legal true n [.beg b, .acc b i] [b] := Legal.acc h1 (by simp) hi
    have h3 : Legal true n [.beg b, .acc b i, .beg b] [b, b] := Legal.beg h2 hb (Or.inl rfl)
    have h4 := Legal.fin (b := b) h3 (by simp)
    have h5 := Legal.fin (b := b) h4 (by simp)
    simpa using h5
  · refine ⟨⟨update (fun _ => 0) i b, fun _ => none, update (update (update (fun _ => none) b none) b (some i)) b none⟩, ?_, by simp, fun b' hb' => ?_⟩
    · simp [run, step, start, List.foldlM, walk]
    · simp [step, hb, Ne.symm hb']

/-- Hypotheses of `given_back_partial` and `end_frees_partial`: two batches at once, with shards 0, 2 and 1; then the first one is ended, and the second one is not. -/
example : Legal false 3 [.beg 5, .beg 6, .acc 5 0, .acc 6 1, .acc 5 2, .acc 5 0] [6, 5] ∧
    (run 3 [.beg 5, .beg 6, .acc 5 0, .acc 6 1, .acc 5 2, .acc 5 0]).map (fun s => [s.lock 0, s.lock 1, s.lock 2]) = some [5, 6, 5] ∧
    (run 3 [.beg 5, .beg 6, .acc 5 0, .acc 6 1, .acc 5 2, .acc 5 0, .fin 5]).map (fun s => [s.lock 0, s.lock 1, s.lock 2]) = some [0, 6, 0] ∧
    (run 3 [.beg 5, .beg 6, .acc 5 0, .acc 6 1, .acc 5 2, .acc 5 0, .fin 5, .fin 6]).map (fun s => [s.lock 0, s.lock 1, s.lock 2]) = some [0, 0, 0] := by
  refine ⟨?_, by decide, by decide, by decide⟩
  have h1 : Legal false 3 [.beg 5] [5] := Legal.beg .none (by decide) (Or.inr (by decide))
  have h2 : Legal false 3 [.beg 5, .beg 6] [6, 5] := Legal.beg h1 (by decide) (Or.inr (by decide))
  have h3 : Legal false 3 [.beg 5, .beg 6, .acc 5 0] [6, 5] := Legal.acc h2 (by decide) (by decide)
  have h4 : Legal false 3 [.beg 5, .beg 6, .acc 5 0, .acc 6 1] [6, 5] := Legal.acc h3 (by decide) (by decide)
  have h5 : Legal false 3 [.beg 5, .beg 6, .acc 5 0, .acc 6 1, .acc 5 2] [6, 5] := Legal.acc h4 (by decide) (by decide)
  exact Legal.acc h5 (by decide) (by decide)

end Verif.Conc.Batches
