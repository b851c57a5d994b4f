import Mathlib.Tactic.Common
import Verif.Args.Model

/-!
C61: argument buffers are freed exactly once.
-/

namespace Verif.Args

/-- The block a slot owns. -/
def Slot.owned (s : Slot) : List Nat := if s.cap ≠ 0 then [s.block] else []

/-- The blocks owned by an array of arguments. -/
def Bufs.owned (x : Bufs) : List Nat := x.used.flatMap Slot.owned

/-- The blocks in use are exactly those of the list, each once. -/
def Inv (h : Heap) (l : List Nat) : Prop := ∀ b, h.live.count b = l.count b ∧ h.live.count b ≤ 1 ∧ (h.next ≤ b → h.live.count b = 0)

/-- Slots not in use own nothing, and the flag is right. -/
def WF (x : Bufs) : Prop := (∀ s ∈ x.spare, s.cap = 0) ∧ (x.zerocopy = true → ∀ s ∈ x.used, s.cap = 0)

theorem Inv.congr {h : Heap} {l l' : List Nat} (hi : Inv h l) (hc : ∀ b, l.count b = l'.count b) : Inv h l' := fun b => by
  rw [← hc b]; exact hi b

theorem free_ok {h : Heap} {b : Nat} {l : List Nat} (hi : Inv h (b :: l)) : ∃ h', h.free b = some h' ∧ Inv h' l := by
  have hb : b ∈ h.live := by
    rw [← List.count_pos_iff, (hi b).1, List.count_cons_self]; omega
  refine ⟨⟨h.live.erase b, h.next⟩, by rw [Heap.free, if_pos hb], ?_⟩
  intro c
  obtain ⟨h1, h2, h3⟩ := hi c
  simp only [List.count_erase]
  rw [List.count_cons] at h1
  refine ⟨by split <;> simp_all, by omega, fun h => by have := h3 h; omega⟩

theorem alloc_ok {h : Heap} {l : List Nat} (hi : Inv h l) : Inv h.alloc.2 (h.alloc.1 :: l) := by
  intro c
  obtain ⟨h1, h2, h3⟩ := hi c
  simp only [Heap.alloc, List.count_cons]
  by_cases hc : h.next = c
  · have := h3 (by omega)
    simp [hc]; omega
  · have : (h.next == c) = false := by simpa using hc
    simp only [this]
    refine ⟨by simpa using h1, by simpa using h2, fun h => by simpa using h3 (by omega)⟩

theorem bufClear_ok {h : Heap} {s : Slot} {l : List Nat} (hi : Inv h (s.owned ++ l)) : ∃ h', bufClear h s = some h' ∧ Inv h' l := by
  unfold bufClear
  unfold Slot.owned at hi
  by_cases hc : s.cap = 0
  · rw [if_neg (by simpa using hc)] at hi ⊢
    exact ⟨h, rfl, by simpa using hi⟩
  · rw [if_pos hc] at hi ⊢
    exact free_ok (by simpa using hi)

theorem grow_pos (need f cap : Nat) (h : cap ≠ 0) : grow need f cap ≠ 0 := by
  induction f generalizing cap with
  | zero => exact h
  | succ f ih =>
    rw [grow]
    split
    · exact ih _ (by omega)
    · exact h

theorem newCap_pos (cap need : Nat) : newCap cap need ≠ 0 := by
  unfold newCap
  exact grow_pos _ _ _ (by split <;> omega)

theorem bufAppend_ok {h : Heap} {s : Slot} {l : List Nat} (hi : Inv h (s.owned ++ l)) (n : Nat) :
    ∃ h' s', bufAppend h s n = some (h', s') ∧ Inv h' (s'.owned ++ l) := by
  unfold bufAppend
  by_cases hn : n = 0
  · rw [if_pos hn]; exact ⟨h, s, rfl, hi⟩
  rw [if_neg hn]
  have howned : ∀ (len cap b : Nat), Slot.owned ⟨len, newCap cap len, b⟩ = [b] := by
    intro len cap b
    unfold Slot.owned
    rw [if_pos (newCap_pos _ _)]
  by_cases hc : s.cap = 0
  · rw [if_pos (by omega), if_pos hc]
    refine ⟨_, _, rfl, ?_⟩
    rw [howned]
    have : s.owned = [] := by unfold Slot.owned; rw [if_neg (by simpa using hc)]
    rw [this] at hi
    exact alloc_ok hi
  · have ho : s.owned = [s.block] := by unfold Slot.owned; rw [if_pos hc]
    by_cases hg : s.len + n > s.cap
    · rw [if_pos hg, if_neg hc]
      obtain ⟨h', h1, h2⟩ := free_ok (b := s.block) (l := l) (by rw [ho] at hi; exact hi)
      rw [h1]
      refine ⟨_, _, rfl, ?_⟩
      rw [howned]
      exact alloc_ok h2
    · rw [if_neg hg]
      have hb : s.block ∈ h.live := by
        rw [← List.count_pos_iff, (hi s.block).1, ho]; simp
      rw [if_pos hb]
      refine ⟨h, _, rfl, ?_⟩
      have : Slot.owned { s with len := s.len + n } = s.owned := rfl
      rw [this]; exact hi

theorem ensure_ok (x : Bufs) (hw : WF x) : ∃ s spare, x.ensure.spare = s :: spare ∧ s.cap = 0 ∧ (∀ t ∈ spare, t.cap = 0) := by
  unfold Bufs.ensure
  split
  · rename_i h
    have : ∃ k, (if x.used.length = 0 then 4 else x.used.length) = k + 1 := by
      split
      · exact ⟨3, rfl⟩
      · exact ⟨x.used.length - 1, by omega⟩
    obtain ⟨k, hk⟩ := this
    simp only [hk, List.replicate_succ]
    refine ⟨_, _, rfl, rfl, ?_⟩
    intro t ht
    rw [(List.mem_replicate.1 ht).2]; rfl
  · rename_i s spare h
    exact ⟨s, spare, h, hw.1 s (by rw [h]; simp), fun t ht => hw.1 t (by rw [h]; simp [ht])⟩

theorem count_snoc (used : List Slot) (s : Slot) (l : List Nat) (b : Nat) :
    ((used ++ [s]).flatMap Slot.owned ++ l).count b = (s.owned ++ (used.flatMap Slot.owned ++ l)).count b := by
  simp only [List.flatMap_append, List.flatMap_cons, List.flatMap_nil, List.append_nil, List.count_append]
  omega

theorem append_ok {h : Heap} {x : Bufs} {l : List Nat} (hw : WF x) (hi : Inv h (x.owned ++ l)) (zc : Bool) (n : Nat) :
    ∃ h' x', append h x zc n = some (h', x') ∧ WF x' ∧ Inv h' (x'.owned ++ l) ∧ x'.used ≠ [] ∧
      ((∀ s ∈ x.used, s.cap = 0) → zc = true → ∀ s ∈ x'.used, s.cap = 0) ∧ (zc = false → x'.zerocopy = false) := by
  obtain ⟨s, spare, hs, hs0, hsp⟩ := ensure_ok x hw
  have hso : s.owned = [] := by unfold Slot.owned; rw [if_neg (by simpa using hs0)]
  unfold append
  simp only [hs]
  cases zc with
  | true =>
    simp only [if_true, Bool.and_true]
    obtain ⟨h', h1, h2⟩ := bufClear_ok (h := h) (s := s) (l := x.owned ++ l) (by rw [hso]; exact hi)
    rw [h1]
    refine ⟨_, _, rfl, ⟨hsp, ?_⟩, ?_, by simp, ?_, by simp⟩
    · intro hz t ht
      simp only [List.mem_append, List.mem_singleton] at ht
      rcases ht with ht | rfl
      · by_cases hl : x.used.length = 0
        · rw [List.length_eq_zero_iff] at hl; rw [hl] at ht; simp at ht
        · simp only [hl, if_false] at hz; exact hw.2 hz t ht
      · rfl
    · refine h2.congr fun b => ?_
      have := count_snoc x.used ⟨n, 0, 0⟩ l b
      simp only [Bufs.owned] at *
      rw [this]
      simp [Slot.owned]
    · intro hu _ t ht
      simp only [List.mem_append, List.mem_singleton] at ht
      rcases ht with ht | rfl
      · exact hu t ht
      · rfl
  | false =>
    simp only [Bool.false_eq_true, if_false, Bool.and_false]
    have hso' : Slot.owned { s with len := 0 } = [] := hso
    obtain ⟨h', s', h1, h2⟩ := bufAppend_ok (h := h) (s := { s with len := 0 }) (l := x.owned ++ l) (by rw [hso']; exact hi) n
    rw [h1]
    refine ⟨_, _, rfl, ⟨hsp, ?_⟩, ?_, by simp, by simp, by simp⟩
    · intro hz
      simp at hz
    · refine h2.congr fun b => ?_
      exact (count_snoc x.used s' l b).symm

theorem clearSlots_ok (ss : List Slot) {h : Heap} {l : List Nat} (hi : Inv h (ss.flatMap Slot.owned ++ l)) :
    ∃ h', clearSlots h ss = some h' ∧ Inv h' l := by
  induction ss generalizing h with
  | nil => exact ⟨h, rfl, by simpa using hi⟩
  | cons s ss ih =>
    obtain ⟨h1, e1, i1⟩ := bufClear_ok (h := h) (s := s) (l := ss.flatMap Slot.owned ++ l) (by simpa using hi)
    obtain ⟨h2, e2, i2⟩ := ih i1
    exact ⟨h2, by rw [clearSlots, e1]; exact e2, i2⟩

theorem unowned {ss : List Slot} (h : ∀ s ∈ ss, s.cap = 0) : ss.flatMap Slot.owned = [] := by
  induction ss with
  | nil => rfl
  | cons s ss ih =>
    rw [List.flatMap_cons, ih fun t ht => h t (by simp [ht])]
    unfold Slot.owned
    rw [if_neg (by simpa using h s (by simp))]; rfl

theorem clear_ok {h : Heap} {x : Bufs} {l : List Nat} (hw : WF x) (hi : Inv h (x.owned ++ l)) :
    ∃ h' x', clear h x = some (h', x') ∧ WF x' ∧ Inv h' l ∧ x'.used = [] := by
  unfold clear
  by_cases hz : x.zerocopy = true
  · rw [if_pos hz]
    refine ⟨_, _, rfl, ⟨?_, by simp⟩, ?_, rfl⟩
    · intro s hs
      simp only [List.mem_append] at hs
      rcases hs with hs | hs
      · exact hw.2 hz s hs
      · exact hw.1 s hs
    · have : x.owned = [] := unowned (hw.2 hz)
      rw [this] at hi; exact hi
  · rw [if_neg hz]
    obtain ⟨h', e, i⟩ := clearSlots_ok x.used hi
    rw [e]
    refine ⟨_, _, rfl, ⟨?_, by simp⟩, i, rfl⟩
    intro s hs
    simp only [List.mem_append, List.mem_map] at hs
    rcases hs with ⟨_, _, rfl⟩ | hs
    · rfl
    · exact hw.1 s hs

theorem free_bufs_ok {h : Heap} {x : Bufs} {l : List Nat} (hw : WF x) (hi : Inv h (x.owned ++ l)) : ∃ h', free h x = some h' ∧ Inv h' l := by
  obtain ⟨h', x', e, _, i, _⟩ := clear_ok hw hi
  exact ⟨h', by rw [free, e]; rfl, i⟩

theorem appends_ok (ws : List (Bool × Nat)) {h : Heap} {x : Bufs} {l : List Nat} (hw : WF x) (hi : Inv h (x.owned ++ l)) :
    ∃ h' x', appends h x ws = some (h', x') ∧ WF x' ∧ Inv h' (x'.owned ++ l) ∧
      ((∀ s ∈ x.used, s.cap = 0) → (∀ w ∈ ws, w.1 = true) → ∀ s ∈ x'.used, s.cap = 0) := by
  induction ws generalizing h x with
  | nil => exact ⟨h, x, rfl, hw, hi, fun h _ => h⟩
  | cons w ws ih =>
    obtain ⟨zc, n⟩ := w
    obtain ⟨h1, x1, e1, w1, i1, _, z1, _⟩ := append_ok hw hi zc n
    obtain ⟨h2, x2, e2, w2, i2, z2⟩ := ih w1 i1
    refine ⟨h2, x2, ?_, w2, i2, ?_⟩
    · rw [appends, e1]; exact e2
    · intro hu hz
      exact z2 (z1 hu (hz (zc, n) (by simp))) fun w hw => hz w (by simp [hw])

/-- Pieces of which the first starts a word. -/
def Starts (ps : List (Bool × Nat)) : Prop := ∀ p, ps.head? = some p → p.1 = false

theorem appendLast_ok {h : Heap} {x : Bufs} {l : List Nat} (hw : WF x) (hz : x.zerocopy = false) (hne : x.used ≠ []) (hi : Inv h (x.owned ++ l)) (n : Nat) :
    ∃ h' x', appendLast h x n = some (h', x') ∧ WF x' ∧ Inv h' (x'.owned ++ l) ∧ x'.used ≠ [] ∧ x'.zerocopy = false := by
  obtain ⟨us, s, hus⟩ : ∃ us s, x.used = us ++ [s] := ⟨x.used.dropLast, x.used.getLast hne, (List.dropLast_concat_getLast hne).symm⟩
  have hi' : Inv h (s.owned ++ (us.flatMap Slot.owned ++ l)) := by
    refine hi.congr fun b => ?_
    rw [Bufs.owned, hus]; exact count_snoc us s l b
  obtain ⟨h', s', e, i⟩ := bufAppend_ok hi' n
  unfold appendLast
  rw [hus, List.getLast?_concat]
  simp only []
  rw [e]
  refine ⟨_, _, rfl, ⟨hw.1, by simp [hz]⟩, ?_, by simp, hz⟩
  refine i.congr fun b => ?_
  simp only [List.dropLast_concat, Bufs.owned]
  exact (count_snoc us s' l b).symm

theorem pieces_ok' (ps : List (Bool × Nat)) {h : Heap} {x : Bufs} {l : List Nat} (hw : WF x) (hz : x.zerocopy = false) (hne : x.used ≠ [])
    (hi : Inv h (x.owned ++ l)) : ∃ h' x', pieces h x ps = some (h', x') ∧ WF x' ∧ Inv h' (x'.owned ++ l) := by
  induction ps generalizing h x with
  | nil => exact ⟨h, x, rfl, hw, hi⟩
  | cons p ps ih =>
    obtain ⟨j, n⟩ := p
    cases j with
    | true =>
      obtain ⟨h1, x1, e1, w1, i1, n1, z1⟩ := appendLast_ok hw hz hne hi n
      obtain ⟨h2, x2, e2, w2, i2⟩ := ih w1 z1 n1 i1
      exact ⟨h2, x2, by rw [pieces, if_pos rfl, e1]; exact e2, w2, i2⟩
    | false =>
      obtain ⟨h1, x1, e1, w1, i1, n1, _, z1⟩ := append_ok hw hi false n
      obtain ⟨h2, x2, e2, w2, i2⟩ := ih w1 (z1 rfl) n1 i1
      exact ⟨h2, x2, by rw [pieces, if_neg (by simp), e1]; exact e2, w2, i2⟩

theorem pieces_ok (ps : List (Bool × Nat)) (hs : Starts ps) {h : Heap} {x : Bufs} {l : List Nat} (hw : WF x)
    (hi : Inv h (x.owned ++ l)) : ∃ h' x', pieces h x ps = some (h', x') ∧ WF x' ∧ Inv h' (x'.owned ++ l) := by
  cases ps with
  | nil => exact ⟨h, x, rfl, hw, hi⟩
  | cons p ps =>
    obtain ⟨j, n⟩ := p
    have : j = false := hs _ rfl
    subst this
    obtain ⟨h1, x1, e1, w1, i1, n1, _, z1⟩ := append_ok hw hi false n
    obtain ⟨h2, x2, e2, w2, i2⟩ := pieces_ok' ps w1 (z1 rfl) n1 i1
    exact ⟨h2, x2, by rw [pieces, if_neg (by simp), e1]; exact e2, w2, i2⟩

theorem removeFirst_ok {h : Heap} {x : Bufs} {l : List Nat} (hw : WF x) (hz : ∀ s ∈ x.used, s.cap = 0) (hi : Inv h (x.owned ++ l)) :
    ∃ h' x', removeFirst h x = some (h', x') ∧ WF x' ∧ Inv h' (x'.owned ++ l) := by
  unfold removeFirst
  cases hu : x.used with
  | nil => exact ⟨h, x, rfl, hw, hi⟩
  | cons s ss =>
    rw [hu] at hz
    have h0 : s.cap = 0 := hz s (by simp)
    simp only [bufClear, h0, ne_eq, not_true_eq_false, if_false, Option.map_some]
    refine ⟨_, _, rfl, ⟨?_, fun _ t ht => hz t (by simp [ht])⟩, ?_⟩
    · intro t ht
      simp only [List.mem_cons] at ht
      rcases ht with rfl | ht
      · cases hl : ss.getLast? with
        | none => rfl
        | some t => exact hz t (by simp [List.mem_of_getLast? hl])
      · exact hw.1 t ht
    · have e1 : x.owned = [] := by rw [Bufs.owned, hu]; exact unowned hz
      have e2 : ss.flatMap Slot.owned = [] := unowned fun t ht => hz t (by simp [ht])
      rw [e1] at hi
      simpa [Bufs.owned, e2] using hi

/-! ### Connections -/

/-- The blocks owned by the statements or portals. -/
def mapOwned (m : List (Bytes × Bufs)) : List Nat := m.flatMap fun e => e.2.owned

/-- All blocks in use belong to exactly one argument of the connection. -/
def Good (s : St) : Prop :=
  WF s.args ∧ WF s.targs ∧ (∀ e ∈ s.stmts, WF e.2) ∧ (∀ e ∈ s.portals, WF e.2) ∧ (s.stmts.map (·.1)).Nodup ∧ (s.portals.map (·.1)).Nodup ∧
    Inv s.heap (s.args.owned ++ (s.targs.owned ++ (mapOwned s.stmts ++ mapOwned s.portals)))

theorem mapSet_ok {m : List (Bytes × Bufs)} (hw : ∀ e ∈ m, WF e.2) (hn : (m.map (·.1)).Nodup) (name : Bytes) {x : Bufs} (hx : WF x) {h : Heap} {l : List Nat}
    (hi : Inv h (x.owned ++ (mapOwned m ++ l))) :
    ∃ h', (((mapSet m name x).2.map fun o => free h o).getD (some h)) = some h' ∧ (∀ e ∈ (mapSet m name x).1, WF e.2) ∧
      ((mapSet m name x).1.map (·.1)).Nodup ∧ Inv h' (mapOwned (mapSet m name x).1 ++ l) := by
  have hkeys : ((mapSet m name x).1.map (·.1)).Nodup := by
    simp only [mapSet, List.map_cons, List.nodup_cons]
    refine ⟨?_, (List.filter_sublist.map _).nodup hn⟩
    simp only [List.mem_map, List.mem_filter, not_exists, not_and]
    intro e he hc
    simp [hc] at he
  have hwf : ∀ e ∈ (mapSet m name x).1, WF e.2 := by
    intro e he
    simp only [mapSet, List.mem_cons, List.mem_filter] at he
    rcases he with rfl | ⟨he, _⟩
    · exact hx
    · exact hw e he
  have hcount : ∀ (m : List (Bytes × Bufs)), (m.map (·.1)).Nodup → ∀ b, (mapOwned m).count b =
      (((m.find? (fun e => e.1 = name)).map fun e => e.2.owned).getD []).count b + (mapOwned (m.filter (fun e => e.1 ≠ name))).count b := by
    intro m
    induction m with
    | nil => intro _ b; rfl
    | cons e m ih =>
      intro hn b
      rw [List.map_cons, List.nodup_cons] at hn
      by_cases he : e.1 = name
      · have hnot : m.filter (fun e => e.1 ≠ name) = m := by
          rw [List.filter_eq_self]
          intro e' he'
          simp only [ne_eq, decide_not, Bool.not_eq_eq_eq_not, Bool.not_true, decide_eq_false_iff_not]
          intro hc
          exact hn.1 (List.mem_map.2 ⟨e', he', by rw [hc, he]⟩)
        rw [List.find?_cons_of_pos (by simpa using he), List.filter_cons_of_neg (by simpa using he), hnot]
        simp [mapOwned]
      · have := ih hn.2 b
        rw [List.find?_cons_of_neg (by simpa using he), List.filter_cons_of_pos (by simpa using he)]
        simp only [mapOwned, List.flatMap_cons, List.count_append] at this ⊢
        omega
  cases hf : m.find? (fun e => e.1 = name) with
  | none =>
    refine ⟨h, by simp [mapSet, hf], hwf, hkeys, hi.congr fun b => ?_⟩
    have := hcount m hn b
    rw [hf] at this
    simp only [mapSet, mapOwned, List.flatMap_cons, List.count_append, Option.map_none, Option.getD_none, List.count_nil] at this ⊢
    omega
  | some o =>
    have hmem := List.mem_of_find?_eq_some hf
    obtain ⟨h', e, i⟩ := free_bufs_ok (h := h) (x := o.2) (l := mapOwned (mapSet m name x).1 ++ l) (hw o hmem) (hi.congr fun b => by
      have := hcount m hn b
      rw [hf] at this
      simp only [mapSet, mapOwned, List.flatMap_cons, List.count_append, Option.map_some, Option.getD_some] at this ⊢
      omega)
    refine ⟨h', ?_, hwf, hkeys, i⟩
    simp [mapSet, hf, e]

/-- Requests for which the buffers are handled right: all but those with a type (`::text`) whose arguments are copies. -/
def Req.Safe : Req → Prop
  | .query ws typed => typed = true → ∀ w ∈ ws, w.1 = true
  | .execute ps typed => typed = false ∧ Starts ps
  | .stopped ps => Starts ps
  | _ => True

theorem empty_wf : WF Bufs.empty := ⟨by simp [Bufs.empty], by simp [Bufs.empty]⟩

theorem step_ok {s : St} (hg : Good s) (r : Req) (hr : r.Safe) : ∃ s', step s r = some s' ∧ Good s' := by
  obtain ⟨ga, gt, gs, gp, gsn, gpn, gi⟩ := hg
  obtain ⟨h1, a1, e1, w1, i1, u1⟩ := clear_ok ga gi
  have ha1 : a1.owned = [] := by rw [Bufs.owned, u1]; rfl
  have hu1 : ∀ t ∈ a1.used, t.cap = 0 := by rw [u1]; simp
  unfold step
  rw [e1]
  simp only [Option.bind_some]
  cases r with
  | query ws typed =>
    obtain ⟨h2, a2, e2, w2, i2, z2⟩ := appends_ok ws w1 (l := s.targs.owned ++ (mapOwned s.stmts ++ mapOwned s.portals)) (by rw [ha1]; exact i1)
    simp only [e2, Option.bind_some]
    cases typed with
    | false => exact ⟨_, rfl, w2, gt, gs, gp, gsn, gpn, i2⟩
    | true =>
      obtain ⟨h3, a3, e3, w3, i3⟩ := removeFirst_ok w2 (z2 hu1 (hr rfl)) i2
      simp only [dropType, if_true, e3, Option.map_some]
      exact ⟨_, rfl, w3, gt, gs, gp, gsn, gpn, i3⟩
  | refused ws =>
    obtain ⟨h2, a2, e2, w2, i2, _⟩ := appends_ok ws w1 (l := s.targs.owned ++ (mapOwned s.stmts ++ mapOwned s.portals)) (by rw [ha1]; exact i1)
    obtain ⟨h3, a3, e3, w3, i3, u3⟩ := clear_ok w2 i2
    simp only [e2, Option.bind_some, e3, Option.map_some]
    refine ⟨_, rfl, w3, gt, gs, gp, gsn, gpn, ?_⟩
    have : a3.owned = [] := by rw [Bufs.owned, u3]; rfl
    simpa [this] using i3
  | parse name ws =>
    obtain ⟨h2, a2, e2, w2, i2, _⟩ := appends_ok ws w1 (l := s.targs.owned ++ (mapOwned s.stmts ++ mapOwned s.portals)) (by rw [ha1]; exact i1)
    obtain ⟨h3, x3, e3, w3, i3, _⟩ := appends_ok (ws.map fun w => (false, w.2)) empty_wf
      (l := a2.owned ++ (s.targs.owned ++ (mapOwned s.stmts ++ mapOwned s.portals))) (by simpa [Bufs.owned, Bufs.empty] using i2)
    obtain ⟨h4, a4, e4, w4, i4, u4⟩ := clear_ok w2 (l := x3.owned ++ (s.targs.owned ++ (mapOwned s.stmts ++ mapOwned s.portals)))
      (i3.congr fun b => by simp only [List.count_append]; omega)
    obtain ⟨h5, e5, w5, n5, i5⟩ := mapSet_ok gs gsn name w3 (l := s.targs.owned ++ mapOwned s.portals)
      (i4.congr fun b => by simp only [List.count_append]; omega)
    simp only [e2, Option.bind_some, e3, e4]
    rw [e5]
    refine ⟨_, rfl, w4, gt, w5, gp, n5, gpn, ?_⟩
    have : a4.owned = [] := by rw [Bufs.owned, u4]; rfl
    refine i5.congr fun b => ?_
    simp only [this, List.count_append, List.nil_append]; omega
  | bind name lens =>
    obtain ⟨h2, t2, e2, w2, i2, u2⟩ := clear_ok gt (l := mapOwned s.stmts ++ mapOwned s.portals) i1
    have ht2 : t2.owned = [] := by rw [Bufs.owned, u2]; rfl
    obtain ⟨h3, t3, e3, w3, i3, _⟩ := appends_ok (lens.map fun n => (false, n)) w2 (l := mapOwned s.stmts ++ mapOwned s.portals) (by rw [ht2]; exact i2)
    obtain ⟨h5, e5, w5, n5, i5⟩ := mapSet_ok gp gpn name w3 (l := mapOwned s.stmts)
      (i3.congr fun b => by simp only [List.count_append]; omega)
    simp only [e2, Option.bind_some, e3]
    rw [e5]
    refine ⟨_, rfl, w1, empty_wf, gs, w5, gsn, n5, ?_⟩
    refine i5.congr fun b => ?_
    have he : Bufs.empty.owned = [] := rfl
    simp only [ha1, he, List.count_append, List.nil_append]; omega
  | execute ps typed =>
    obtain ⟨ht, hs⟩ := hr
    subst ht
    obtain ⟨h2, t2, e2, w2, i2, u2⟩ := clear_ok gt (l := mapOwned s.stmts ++ mapOwned s.portals) i1
    have ht2 : t2.owned = [] := by rw [Bufs.owned, u2]; rfl
    obtain ⟨h3, t3, e3, w3, i3⟩ := pieces_ok ps hs w2 (l := mapOwned s.stmts ++ mapOwned s.portals) (by rw [ht2]; exact i2)
    simp only [e2, Option.bind_some, e3, dropType, Bool.false_eq_true, if_false, Option.map_some]
    refine ⟨_, rfl, w3, w1, gs, gp, gsn, gpn, ?_⟩
    simpa [ha1] using i3
  | stopped ps =>
    obtain ⟨h2, t2, e2, w2, i2, u2⟩ := clear_ok gt (l := mapOwned s.stmts ++ mapOwned s.portals) i1
    have ht2 : t2.owned = [] := by rw [Bufs.owned, u2]; rfl
    obtain ⟨h3, t3, e3, w3, i3⟩ := pieces_ok ps hr w2 (l := mapOwned s.stmts ++ mapOwned s.portals) (by rw [ht2]; exact i2)
    simp only [e2, Option.bind_some, e3, Option.map_some]
    refine ⟨_, rfl, w1, w3, gs, gp, gsn, gpn, ?_⟩
    simpa [ha1] using i3

theorem steps_ok (rs : List Req) {s : St} (hg : Good s) (hr : ∀ r ∈ rs, r.Safe) : ∃ s', steps s rs = some s' ∧ Good s' := by
  induction rs generalizing s with
  | nil => exact ⟨s, rfl, hg⟩
  | cons r rs ih =>
    obtain ⟨s1, e1, g1⟩ := step_ok hg r (hr r (by simp))
    obtain ⟨s2, e2, g2⟩ := ih g1 fun x hx => hr x (by simp [hx])
    exact ⟨s2, by rw [steps, e1]; exact e2, g2⟩

theorem new_good : Good St.new := by
  refine ⟨empty_wf, empty_wf, by simp [St.new], by simp [St.new], by simp [St.new], by simp [St.new], ?_⟩
  intro b
  simp [St.new, Bufs.owned, Bufs.empty, mapOwned]

theorem freeAll_ok (m : List (Bytes × Bufs)) (hw : ∀ e ∈ m, WF e.2) {h : Heap} {l : List Nat} (hi : Inv h (mapOwned m ++ l)) :
    ∃ h', freeAll h m = some h' ∧ Inv h' l := by
  induction m generalizing h with
  | nil => exact ⟨h, rfl, by simpa [mapOwned] using hi⟩
  | cons e m ih =>
    obtain ⟨h1, e1, i1⟩ := free_bufs_ok (h := h) (x := e.2) (l := mapOwned m ++ l) (hw e (by simp)) (by simpa [mapOwned] using hi)
    obtain ⟨h2, e2, i2⟩ := ih (fun x hx => hw x (by simp [hx])) i1
    exact ⟨h2, by rw [freeAll, e1]; exact e2, i2⟩

/-- C61.  Whatever a client sends (queries good and refused, prepared, bound and executed statements of any shape, in any order), no block
is freed twice or used after it was freed, and when the connection ends every block has been freed.  Full property: for all requests;
missing are those that start with a type (`::text`) and have copied arguments, for which `type_prefix_double_free` shows a double free. -/
theorem buffers_freed_once_partial (rs : List Req) (hr : ∀ r ∈ rs, r.Safe) :
    ∃ s h, steps St.new rs = some s ∧ close s = some h ∧ h.live = [] := by
  obtain ⟨s, e, ga, gt, gs, gp, gsn, gpn, gi⟩ := steps_ok rs new_good hr
  obtain ⟨h1, e1, i1⟩ := free_bufs_ok ga gi
  obtain ⟨h2, e2, i2⟩ := freeAll_ok s.stmts gs (h := h1) (l := mapOwned s.portals ++ s.targs.owned)
    (i1.congr fun b => by simp only [List.count_append]; omega)
  obtain ⟨h3, e3, i3⟩ := freeAll_ok s.portals gp i2
  obtain ⟨h4, e4, i4⟩ := free_bufs_ok (h := h3) (l := []) gt (by simpa using i3)
  refine ⟨s, h4, e, ?_, ?_⟩
  · simp only [close, e1, e2, e3, Option.bind_some, e4]
  · rw [List.eq_nil_iff_forall_not_mem]
    intro b hb
    rw [← List.count_pos_iff, (i4 b).1] at hb
    simp at hb

/-- A session with a prepared statement used twice, its replacement, a query with an escaped string, and a refused one. -/
example : ∀ r ∈ ([.parse [115] [(true, 3), (true, 2), (true, 2)], .bind [] [40, 100], .execute [(false, 3), (false, 40), (true, 100)] false,
    .bind [] [0, 3], .execute [(false, 3), (false, 0), (false, 3)] false, .parse [115] [(true, 4)], .query [(true, 3), (true, 1), (false, 7)] false,
    .refused [(true, 1), (false, 3)], .query [(true, 6), (true, 3), (true, 1)] true] : List Req), r.Safe := by
  intro r hr
  simp only [List.mem_cons, List.not_mem_nil, or_false] at hr
  rcases hr with rfl | rfl | rfl | rfl | rfl | rfl | rfl | rfl | rfl <;> simp [Req.Safe, Starts]

/-- C61 is false of the code.  After `::text set k E'\n'` the next query of four words frees the last argument a second time. -/
theorem type_prefix_double_free :
    ∃ s, steps St.new [.query [(true, 6), (true, 3), (true, 1), (false, 1)] true] = some s ∧
      step s (.query [(true, 3), (true, 1), (true, 1), (true, 2)] false) = none := by
  refine ⟨_, rfl, by decide +kernel⟩

/-- The same with a prepared statement `::text set $1 $2`. -/
theorem type_prefix_double_free_prepared :
    ∃ s, steps St.new [.parse [] [(true, 6), (true, 3), (true, 2), (true, 2)], .bind [] [1, 1], .execute [(false, 6), (false, 3), (false, 1), (false, 1)] true] = some s ∧
      step s (.query [(true, 3), (true, 1), (true, 1), (true, 2)] false) = none := by
  refine ⟨_, rfl, by decide +kernel⟩

end Verif.Args
