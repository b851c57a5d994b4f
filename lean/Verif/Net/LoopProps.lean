import Mathlib.Tactic.Common
import Verif.Net.LoopInv

/-!
C82: no connection is used after it was closed, closed twice, forgotten or leaked, and no reply or data is lost.
C83: the counters shown by STATS add up.
-/

namespace Verif.Net.Loop

open Function (update)

/-! ### Specification -/

/-- The connection an event is about. -/
def Ev.id : Ev → Nat
  | .opened i | .read i _ | .data i _ | .wrote i _ | .sent i _ | .broken i | .counted i | .closed i => i

/-- The life of a connection. -/
inductive Life where
  | unborn | live | dead
deriving DecidableEq, Repr

/-- Opened once, then used, then closed once; anything else is not allowed. -/
def track (i : Nat) (x : Life) (e : Ev) : Option Life :=
  if e.id ≠ i then some x
  else
    match x, e with
    | .unborn, .opened _ => some .live
    | .live, .opened _ => none
    | .live, .closed _ => some .dead
    | .live, _ => some .live
    | _, _ => none

/-- The life of a connection according to a history; `none` if the history is not allowed. -/
def life (i : Nat) (l : List Ev) : Option Life := l.foldlM (track i) .unborn

/-- Bytes written to the socket of a connection, put to its buffer, read from it, and given to the handler. -/
def sentTo (i : Nat) (l : List Ev) : Bytes := l.flatMap fun | .sent j d => if j = i then d else [] | _ => []
def wroteTo (i : Nat) (l : List Ev) : Bytes := l.flatMap fun | .wrote j d => if j = i then d else [] | _ => []
def readFrom (i : Nat) (l : List Ev) : Bytes := l.flatMap fun | .read j d => if j = i then d else [] | _ => []
def givenTo (i : Nat) (l : List Ev) : Bytes := l.flatMap fun | .data j d => if j = i then d else [] | _ => []

/-! ### Proofs -/

/-- An event of a living connection. -/
def Mid (i : Nat) (e : Ev) : Prop := e.id = i ∧ e ≠ .opened i ∧ e ≠ .closed i

theorem track_other {i : Nat} {x : Life} {e : Ev} (h : e.id ≠ i) : track i x e = some x := by unfold track; rw [if_pos h]

theorem track_mid {i : Nat} {e : Ev} (h : Mid i e) : track i .live e = some .live := by
  obtain ⟨h1, h2, h3⟩ := h
  unfold track
  rw [if_neg (by simp [h1])]
  cases e with
  | opened j => exact absurd (by rw [show j = i from h1]) h2
  | closed j => exact absurd (by rw [show j = i from h1]) h3
  | _ => rfl

theorem fold_other {i j : Nat} (hij : i ≠ j) {m : List Ev} (h : ∀ e ∈ m, e.id = j) (x : Life) : m.foldlM (track i) x = some x := by
  induction m with
  | nil => rfl
  | cons e m ih =>
    rw [List.foldlM_cons, track_other (by rw [h e (by simp)]; exact hij.symm)]
    exact ih fun e he => h e (by simp [he])

theorem fold_mid {i : Nat} {m : List Ev} (h : ∀ e ∈ m, Mid i e) : m.foldlM (track i) .live = some .live := by
  induction m with
  | nil => rfl
  | cons e m ih =>
    rw [List.foldlM_cons, track_mid (h e (by simp))]
    exact ih fun e he => h e (by simp [he])

theorem life_append (i : Nat) (l m : List Ev) : life i (l ++ m) = (life i l).bind fun x => m.foldlM (track i) x := by
  unfold life
  rw [List.foldlM_append]
  rfl

theorem other_all {i : Nat} {e : Ev} (h : e.id ≠ i) :
    (∀ m, sentTo i (e :: m) = sentTo i m) ∧ (∀ m, wroteTo i (e :: m) = wroteTo i m) ∧ (∀ m, readFrom i (e :: m) = readFrom i m) ∧
      (∀ m, givenTo i (e :: m) = givenTo i m) := by
  cases e <;> simp only [Ev.id] at h <;> simp [sentTo, wroteTo, readFrom, givenTo, h]

theorem others {i j : Nat} (hij : i ≠ j) {m : List Ev} (h : ∀ e ∈ m, e.id = j) :
    sentTo i m = [] ∧ wroteTo i m = [] ∧ readFrom i m = [] ∧ givenTo i m = [] ∧ Ev.broken i ∉ m := by
  induction m with
  | nil => exact ⟨rfl, rfl, rfl, rfl, by simp⟩
  | cons e m ih =>
    obtain ⟨h1, h2, h3, h4, h5⟩ := ih fun e he => h e (by simp [he])
    have he : e.id ≠ i := by rw [h e (by simp)]; exact hij.symm
    obtain ⟨g1, g2, g3, g4⟩ := other_all he
    refine ⟨by rw [g1, h1], by rw [g2, h2], by rw [g3, h3], by rw [g4, h4], ?_⟩
    rw [List.mem_cons, not_or]
    exact ⟨fun hc => he (by rw [← hc]; rfl), h5⟩

theorem sentTo_append (i : Nat) (l m : List Ev) : sentTo i (l ++ m) = sentTo i l ++ sentTo i m := List.flatMap_append
theorem wroteTo_append (i : Nat) (l m : List Ev) : wroteTo i (l ++ m) = wroteTo i l ++ wroteTo i m := List.flatMap_append
theorem readFrom_append (i : Nat) (l m : List Ev) : readFrom i (l ++ m) = readFrom i l ++ readFrom i m := List.flatMap_append
theorem givenTo_append (i : Nat) (l m : List Ev) : givenTo i (l ++ m) = givenTo i l ++ givenTo i m := List.flatMap_append

theorem flush_log (id : Nat) (b : Bool) (k : Conn) : (∀ e ∈ (flush id b k).2, Mid id e) ∧
    (.broken id ∈ (flush id b k).2 ∨ k.out = sentTo id (flush id b k).2) ∧ wroteTo id (flush id b k).2 = [] ∧ readFrom id (flush id b k).2 = [] ∧
    givenTo id (flush id b k).2 = [] := by
  unfold flush
  split
  · rename_i h; simp [h, sentTo, wroteTo, readFrom, givenTo]
  · split <;> simp [Mid, Ev.id, sentTo, wroteTo, readFrom, givenTo]

theorem runOps_log {id : Nat} (os : List Op) {k k1 : Conn} {w w1 : Option Want} {l l1 : List Ev} (h : runOps id os (k, w, l) = some (k1, w1, l1)) :
    ∃ m, l1 = l ++ m ∧ (∀ e ∈ m, Mid id e) ∧ (.broken id ∈ m ∨ k.out ++ wroteTo id m = sentTo id m ++ k1.out) ∧ readFrom id m = [] ∧ givenTo id m = [] := by
  induction os generalizing k w l with
  | nil =>
    simp only [runOps, Option.some.injEq, Prod.mk.injEq] at h
    obtain ⟨rfl, rfl, rfl⟩ := h
    exact ⟨[], by simp, by simp, .inr (by simp [wroteTo, sentTo]), rfl, rfl⟩
  | cons o os ih =>
    rw [runOps] at h
    cases o with
    | write d =>
      obtain ⟨m, h1, h2, h3, h4, h5⟩ := ih (k := { k with out := k.out ++ d }) (l := l ++ [.wrote id d]) (w := w) (by simpa [runOp] using h)
      refine ⟨.wrote id d :: m, by rw [h1]; simp, ?_, ?_, by simpa [readFrom] using h4, by simpa [givenTo] using h5⟩
      · intro e he
        rcases List.mem_cons.1 he with rfl | he
        · simp [Mid, Ev.id]
        · exact h2 e he
      · rcases h3 with h3 | h3
        · exact .inl (List.mem_cons_of_mem _ h3)
        · refine .inr ?_
          have : wroteTo id (.wrote id d :: m) = d ++ wroteTo id m := by simp [wroteTo]
          rw [this, ← List.append_assoc]
          simpa [sentTo] using h3
    | close => exact ih (k := { k with closed := true }) (l := l) (w := w) (by simpa [runOp] using h)
    | count =>
      obtain ⟨m, h1, h2, h3, h4, h5⟩ := ih (k := { k with stat := k.stat + 1 }) (l := l ++ [.counted id]) (w := w) (by simpa [runOp] using h)
      refine ⟨.counted id :: m, by rw [h1]; simp, ?_, ?_, by simpa [readFrom] using h4, by simpa [givenTo] using h5⟩
      · intro e he
        rcases List.mem_cons.1 he with rfl | he
        · simp [Mid, Ev.id]
        · exact h2 e he
      · rcases h3 with h3 | h3
        · exact .inl (List.mem_cons_of_mem _ h3)
        · exact .inr (by simpa [sentTo, wroteTo] using h3)
    | bgwork b =>
      by_cases hc : k.bg ≠ none ∨ k.closed = true
      · rw [runOp, if_pos hc] at h
        exact ih h
      · obtain ⟨g1, g2, g3, g4, g5⟩ := flush_log id b k
        obtain ⟨f1, f2, f3, f4⟩ := flush_fd id b k
        rw [runOp, if_neg hc] at h
        have fin : ∀ {kk : Conn} {m : List Ev}, kk.out = [] → (∀ e ∈ m, Mid id e) → (.broken id ∈ m ∨ kk.out ++ wroteTo id m = sentTo id m ++ k1.out) → readFrom id m = [] →
            givenTo id m = [] → l1 = l ++ (flush id b k).2 ++ m →
            ∃ m, l1 = l ++ m ∧ (∀ e ∈ m, Mid id e) ∧ (.broken id ∈ m ∨ k.out ++ wroteTo id m = sentTo id m ++ k1.out) ∧ readFrom id m = [] ∧ givenTo id m = [] := by
          intro kk m hk a1 a2 a3 a4 a5
          refine ⟨(flush id b k).2 ++ m, by rw [a5, List.append_assoc], ?_, ?_, by rw [readFrom_append, g4, a3]; rfl, by rw [givenTo_append, g5, a4]; rfl⟩
          · intro e he
            rcases List.mem_append.1 he with he | he
            · exact g1 e he
            · exact a1 e he
          · rcases g2 with g2 | g2
            · exact .inl (List.mem_append_left _ g2)
            · rcases a2 with a2 | a2
              · exact .inl (List.mem_append_right _ a2)
              · refine .inr ?_
                rw [hk, List.nil_append] at a2
                rw [wroteTo_append, sentTo_append, g3, ← g2, List.nil_append, a2, List.append_assoc]
        by_cases hcl : (flush id b k).1.closed = true
        · simp only [if_pos hcl, Option.bind_some] at h
          obtain ⟨m, h1, h2, h3, h4, h5⟩ := ih h
          exact fin f3 h2 h3 h4 h5 h1
        · simp only [if_neg hcl] at h
          by_cases hw : w ≠ some .read
          · simp [if_pos hw] at h
          · simp only [if_neg hw, Option.bind_some] at h
            obtain ⟨m, h1, h2, h3, h4, h5⟩ := ih h
            exact fin (kk := { (flush id b k).1 with bg := some false }) f3 h2 h3 h4 h5 h1

/-- What is in the buffer of a connection. -/
def outOf (s : S) (i : Nat) : Bytes := ((s.heap i).map Conn.out).getD []

/-- What has been read for a connection and not yet handled. -/
def pending (q : List (Nat × Bytes)) (i : Nat) : Bytes := q.flatMap fun x => if x.1 = i then x.2 else []

/-- The state of a connection. -/
def stage (s : S) (i : Nat) : Life := if s.next ≤ i then .unborn else if (s.heap i).isSome then .live else .dead

structure LogInv (s : S) : Prop where
  life : ∀ i, life i s.log = some (stage s i)
  out : ∀ i, .broken i ∈ s.log ∨ wroteTo i s.log = sentTo i s.log ++ outOf s i
  read : ∀ i, readFrom i s.log = givenTo i s.log ++ pending s.qins i
  none : ∀ i, s.next ≤ i → s.heap i = none

theorem LogInv.same {s s' : S} (h : LogInv s) (h1 : s'.heap = s.heap) (h2 : s'.next = s.next) (h3 : s'.log = s.log) (h4 : s'.qins = s.qins) : LogInv s' := by
  refine ⟨fun i => ?_, fun i => ?_, fun i => ?_, fun i => ?_⟩
  · rw [h3, h.life i]; simp only [stage, h1, h2]
  · rw [h3]; simp only [outOf, h1]; exact h.out i
  · rw [h3, h4]; exact h.read i
  · rw [h1, h2]; exact h.none i

/-- A step that handles one connection. -/
theorem LogInv.touch {s s' : S} (h : LogInv s) {id : Nat} {k k' : Conn} (hk : s.heap id = some k) (hheap : s'.heap = update s.heap id (some k'))
    (hnext : s'.next = s.next) {m : List Ev} (hlog : s'.log = s.log ++ m) (hm : ∀ e ∈ m, Mid id e)
    (hout : .broken id ∈ m ∨ k.out ++ wroteTo id m = sentTo id m ++ k'.out)
    (hread : pending s.qins id ++ readFrom id m = givenTo id m ++ pending s'.qins id) (hpend : ∀ i, i ≠ id → pending s'.qins i = pending s.qins i) : LogInv s' := by
  have hm' : ∀ e ∈ m, e.id = id := fun e he => (hm e he).1
  refine ⟨fun i => ?_, fun i => ?_, fun i => ?_, fun i hi => ?_⟩
  · rw [hlog, life_append, h.life i]
    show m.foldlM (track i) (stage s i) = _
    by_cases hi : i = id
    · subst hi
      have hl : i < s.next := by
        by_contra hc
        rw [h.none i (by omega)] at hk
        simp at hk
      have h1 : stage s i = .live := by unfold stage; rw [if_neg (by omega), hk]; rfl
      have h2 : stage s' i = .live := by unfold stage; rw [hnext, if_neg (by omega), hheap]; simp
      rw [h1, h2, fold_mid hm]
    · rw [fold_other hi hm']
      simp only [stage, hheap, hnext, Function.update_of_ne hi]
  · rw [hlog, wroteTo_append, sentTo_append]
    by_cases hi : i = id
    · subst hi
      have h1 : outOf s i = k.out := by simp [outOf, hk]
      have h2 : outOf s' i = k'.out := by simp [outOf, hheap]
      rw [h2]
      rcases h.out i with ho | ho
      · exact .inl (List.mem_append_left _ ho)
      · rcases hout with hout | hout
        · exact .inl (List.mem_append_right _ hout)
        · refine .inr ?_
          rw [ho, h1, List.append_assoc, hout, List.append_assoc]
    · obtain ⟨g1, g2, -, -, -⟩ := others hi hm'
      rw [g1, g2, List.append_nil, List.append_nil]
      rcases h.out i with ho | ho
      · exact .inl (List.mem_append_left _ ho)
      · refine .inr ?_
        rw [ho]
        simp only [outOf, hheap, Function.update_of_ne hi]
  · rw [hlog, readFrom_append, givenTo_append]
    by_cases hi : i = id
    · subst hi
      rw [h.read i, List.append_assoc, hread, List.append_assoc]
    · obtain ⟨-, -, g3, g4, -⟩ := others hi hm'
      rw [g3, g4, List.append_nil, List.append_nil, hpend i hi]
      exact h.read i
  · rw [hheap, Function.update_of_ne]
    · exact h.none i (by rw [← hnext]; exact hi)
    · rintro rfl
      rw [h.none i (by rw [← hnext]; exact hi)] at hk
      simp at hk

theorem mid_append {i : Nat} {l m : List Ev} (h1 : ∀ e ∈ l, Mid i e) (h2 : ∀ e ∈ m, Mid i e) : ∀ e ∈ l ++ m, Mid i e := by
  intro e he
  rcases List.mem_append.1 he with he | he
  · exact h1 e he
  · exact h2 e he

theorem pending_append (q r : List (Nat × Bytes)) (i : Nat) : pending (q ++ r) i = pending q i ++ pending r i := List.flatMap_append

variable {cap : Nat} {lst : Nat → Bool} {hash : Nat → Nat}

theorem sort_log {s s' : S} {id : Nat} {k : Conn} (h : LogInv s) (he : sort cap s id k = .ok s') : LogInv s' := by
  unfold sort at he
  split at he
  · split at he <;> cases he
    exact h.same rfl rfl rfl rfl
  · split at he
    · split at he <;> cases he
      exact h.same rfl rfl rfl rfl
    · split at he
      · split at he <;> cases he
        exact h.same rfl rfl rfl rfl
      · split at he <;> cases he
        exact h.same rfl rfl rfl rfl

theorem accept_log {s s' : S} {fd : Nat} {l : List Nat} {o : Orc} (h : LogInv s) (he : acceptStep cap lst hash o s fd l = .ok s') : LogInv s' := by
  unfold acceptStep at he
  split at he
  · split at he
    · cases he
    · exact sort_log (s := { s with events := l }) (h.same rfl rfl rfl rfl) he
  · split at he
    · cases he; exact h.same rfl rfl rfl rfl
    · split at he
      · cases he; exact h.same rfl rfl rfl rfl
      · refine sort_log ?_ he
        refine ⟨fun i => ?_, fun i => ?_, fun i => ?_, fun i hi => ?_⟩
        · show life i (s.log ++ [.opened s.next]) = some (stage { s with events := l, heap := update s.heap s.next (some ⟨fd, false, [], none, 0⟩), table := Cmap.insert hash s.table ⟨fd, s.next⟩, next := s.next + 1, nconns := s.nconns + 1, log := s.log ++ [.opened s.next] } i)
          rw [life_append, h.life i]
          by_cases hi : i = s.next
          · subst hi
            simp [stage, track, Ev.id]
          · have h1 : stage { s with events := l, heap := update s.heap s.next (some ⟨fd, false, [], none, 0⟩), table := Cmap.insert hash s.table ⟨fd, s.next⟩, next := s.next + 1, nconns := s.nconns + 1, log := s.log ++ [.opened s.next] } i = stage s i := by
              simp only [stage, Function.update_of_ne hi]
              by_cases hle : s.next ≤ i
              · rw [if_pos hle, if_pos (by omega)]
              · rw [if_neg hle, if_neg (by omega)]
            rw [h1]
            exact fold_other hi (m := [.opened s.next]) (by simp [Ev.id]) (stage s i)
        · show _ ∨ wroteTo i (s.log ++ [.opened s.next]) = sentTo i (s.log ++ [.opened s.next]) ++ _
          have h0 : outOf { s with events := l, heap := update s.heap s.next (some ⟨fd, false, [], none, 0⟩), table := Cmap.insert hash s.table ⟨fd, s.next⟩, next := s.next + 1, nconns := s.nconns + 1, log := s.log ++ [.opened s.next] } i = outOf s i := by
            by_cases hi : i = s.next
            · subst hi; simp [outOf, h.none]
            · simp only [outOf, Function.update_of_ne hi]
          rw [h0, wroteTo_append, sentTo_append, show wroteTo i [.opened s.next] = [] from rfl, show sentTo i [.opened s.next] = [] from rfl, List.append_nil, List.append_nil]
          rcases h.out i with ho | ho
          · exact .inl (List.mem_append_left _ ho)
          · exact .inr ho
        · show readFrom i (s.log ++ [.opened s.next]) = givenTo i (s.log ++ [.opened s.next]) ++ _
          rw [readFrom_append, givenTo_append, show readFrom i [.opened s.next] = [] from rfl, show givenTo i [.opened s.next] = [] from rfl, List.append_nil, List.append_nil]
          exact h.read i
        · replace hi : s.next + 1 ≤ i := hi
          show update s.heap s.next _ i = none
          rw [Function.update_of_ne (by omega)]
          exact h.none i (by omega)

theorem attach_log {s s' : S} {id : Nat} {l : List Nat} {o : Orc} (h : LogInv s) (he : attachStep cap o s id l = .ok s') : LogInv s' := by
  unfold attachStep at he
  split at he
  · cases he
  · rename_i k hk
    split at he
    · cases he
    · split at he
      · cases he
      · rename_i k1 w l1 hr
        split at he
        · cases he
        · obtain ⟨m, h1, h2, h3, h4, h5⟩ := runOps_log o.ops hr
          rw [List.nil_append] at h1
          subst h1
          obtain ⟨g1, g2, g3, g4, g5⟩ := flush_log id o.sent { k1 with bg := none }
          obtain ⟨f1, f2, f3, f4⟩ := flush_fd id o.sent { k1 with bg := none }
          have ht : ∀ s'' : S, s''.heap = update s.heap id (some (flush id o.sent { k1 with bg := none }).1) → s''.next = s.next →
              s''.log = s.log ++ l1 ++ (flush id o.sent { k1 with bg := none }).2 → s''.qins = s.qins → LogInv s'' := by
            intro s'' a1 a2 a3 a4
            refine h.touch hk a1 a2 (by rw [a3, List.append_assoc]) (mid_append h2 g1) ?_ ?_ (fun i _ => by rw [a4])
            · rcases h3 with h3 | h3
              · exact .inl (List.mem_append_left _ h3)
              · rcases g2 with g2 | g2
                · exact .inl (List.mem_append_right _ g2)
                · refine .inr ?_
                  rw [wroteTo_append, sentTo_append, g3, List.append_nil, h3, ← g2, f3, List.append_nil]
            · rw [readFrom_append, givenTo_append, h4, h5, g4, g5, a4]; simp
          simp only [] at he
          split at he
          · split at he <;> cases he
            exact ht _ rfl rfl rfl rfl
          · split at he <;> cases he
            exact ht _ rfl rfl rfl rfl

theorem read_log {s s' : S} {id : Nat} {l : List Nat} {o : Orc} (h : LogInv s) (he : readStep cap o s id l = .ok s') : LogInv s' := by
  unfold readStep at he
  split at he
  · cases he
  · rename_i k hk
    split at he
    · cases he
    · split at he
      · split at he <;> cases he
        exact h.same rfl rfl rfl rfl
      · split at he <;> cases he
        refine h.touch hk (k' := k) ((update_id s.heap id).trans (by rw [hk])) rfl (m := [.read id o.rd.bytes]) rfl (by simp [Mid, Ev.id]) (.inr (by simp [wroteTo, sentTo])) ?_ ?_
        · show pending s.qins id ++ _ = _ ++ pending (s.qins ++ [(id, o.rd.bytes)]) id
          rw [pending_append]
          simp [readFrom, givenTo, pending]
        · intro i hi
          show pending (s.qins ++ [(id, o.rd.bytes)]) i = _
          rw [pending_append]
          simp [pending, hi.symm]

theorem process_log {s s' : S} {id : Nat} {d : Bytes} {l : List (Nat × Bytes)} {o : Orc} (h : LogInv s) (hq : s.qins = (id, d) :: l) (hn : id ∉ l.map (·.1))
    (he : processStep cap o s id d l = .ok s') : LogInv s' := by
  unfold processStep at he
  split at he
  · cases he
  · rename_i k hk
    split at he
    · cases he
    · rename_i k1 w l1 hr
      obtain ⟨m, h1, h2, h3, h4, h5⟩ := runOps_log o.ops hr
      subst h1
      have hp : pending l id = [] := by
        rw [pending, List.flatMap_eq_nil_iff]
        intro x hx
        rw [if_neg]
        rintro rfl
        exact hn (List.mem_map.2 ⟨x, hx, rfl⟩)
      have ht : ∀ s'' : S, s''.heap = update s.heap id (some { k1 with stat := 0 }) → s''.next = s.next →
          s''.log = s.log ++ ([.data id d] ++ m) → s''.qins = l → LogInv s'' := by
        intro s'' a1 a2 a3 a4
        refine h.touch hk a1 a2 a3 (mid_append (by simp [Mid, Ev.id]) h2) ?_ ?_ ?_
        · rcases h3 with h3 | h3
          · exact .inl (List.mem_append_right _ h3)
          · refine .inr ?_
            rw [wroteTo_append, sentTo_append]
            exact h3
        · rw [readFrom_append, givenTo_append, h4, h5, a4, hp, hq]
          simp only [pending, List.flatMap_cons] at hp ⊢
          rw [hp]
          simp [readFrom, givenTo]
        · intro i hi
          rw [a4, hq]
          simp [pending, hi.symm]
      simp only [] at he
      split at he
      · cases he; exact ht _ rfl rfl rfl rfl
      · split at he
        · split at he <;> cases he
          exact ht _ rfl rfl rfl rfl
        · split at he
          · split at he <;> cases he
            exact ht _ rfl rfl rfl rfl
          · cases he; exact ht _ rfl rfl rfl rfl

theorem write_log {s s' : S} {id : Nat} {l : List Nat} {o : Orc} (h : LogInv s) (he : writeStep cap o s id l = .ok s') : LogInv s' := by
  unfold writeStep at he
  split at he
  · cases he
  · rename_i k hk
    obtain ⟨g1, g2, g3, g4, g5⟩ := flush_log id o.sent k
    obtain ⟨f1, f2, f3, f4⟩ := flush_fd id o.sent k
    have ht : ∀ s'' : S, s''.heap = update s.heap id (some (flush id o.sent k).1) → s''.next = s.next →
        s''.log = s.log ++ (flush id o.sent k).2 → s''.qins = s.qins → LogInv s'' := by
      intro s'' a1 a2 a3 a4
      refine h.touch hk a1 a2 a3 g1 ?_ ?_ (fun i _ => by rw [a4])
      · rcases g2 with g2 | g2
        · exact .inl g2
        · exact .inr (by rw [g3, f3, List.append_nil, List.append_nil]; exact g2)
      · rw [g4, g5, a4]; simp
    simp only [] at he
    split at he
    · split at he <;> cases he
      exact ht _ rfl rfl rfl rfl
    · cases he; exact ht _ rfl rfl rfl rfl

theorem close_log {s s' : S} {id : Nat} {l : List Nat} (h : LogInv s) (ho : ∀ k, s.heap id = some k → k.out = []) (he : closeStep hash s id l = .ok s') : LogInv s' := by
  unfold closeStep at he
  split at he
  · cases he
  · rename_i k hk
    split at he
    · cases he
    · split at he
      · cases he
      · cases he
        have hlt : id < s.next := by
          by_contra hc
          rw [h.none id (by omega)] at hk
          simp at hk
        have hst : ∀ i, stage { s with qcloses := l, heap := update s.heap id none, table := Cmap.delete hash s.table ⟨k.fd, id⟩, nconns := s.nconns - 1, isopen := update s.isopen k.fd false, reg := update s.reg k.fd none, log := s.log ++ [.closed id] } i =
            if i = id then .dead else stage s i := by
          intro i
          by_cases hi : i = id
          · subst hi; rw [if_pos rfl]; simp only [stage]; rw [if_neg (by omega)]; simp
          · rw [if_neg hi]; simp only [stage, Function.update_of_ne hi]
        refine ⟨fun i => ?_, fun i => ?_, fun i => ?_, fun i hi => ?_⟩
        · rw [hst]
          show life i (s.log ++ [.closed id]) = _
          rw [life_append, h.life i]
          by_cases hi : i = id
          · subst hi
            have h1 : stage s i = .live := by unfold stage; rw [if_neg (by omega), hk]; rfl
            rw [if_pos rfl, h1]
            simp [track, Ev.id]
          · rw [if_neg hi]
            exact fold_other hi (m := [.closed id]) (by simp [Ev.id]) (stage s i)
        · show _ ∨ wroteTo i (s.log ++ [.closed id]) = sentTo i (s.log ++ [.closed id]) ++ _
          have h0 : outOf { s with qcloses := l, heap := update s.heap id none, table := Cmap.delete hash s.table ⟨k.fd, id⟩, nconns := s.nconns - 1, isopen := update s.isopen k.fd false, reg := update s.reg k.fd none, log := s.log ++ [.closed id] } i = outOf s i := by
            by_cases hi : i = id
            · subst hi; simp [outOf, hk, ho k hk]
            · simp only [outOf, Function.update_of_ne hi]
          rw [h0, wroteTo_append, sentTo_append, show wroteTo i [.closed id] = [] from rfl, show sentTo i [.closed id] = [] from rfl, List.append_nil, List.append_nil]
          rcases h.out i with ho | ho
          · exact .inl (List.mem_append_left _ ho)
          · exact .inr ho
        · show readFrom i (s.log ++ [.closed id]) = givenTo i (s.log ++ [.closed id]) ++ _
          rw [readFrom_append, givenTo_append, show readFrom i [.closed id] = [] from rfl, show givenTo i [.closed id] = [] from rfl, List.append_nil, List.append_nil]
          exact h.read i
        · show update s.heap id none i = none
          by_cases hid : i = id
          · subst hid; simp
          · rw [Function.update_of_ne hid]; exact h.none i hi

theorem step_log {s s' : S} {cs : List Cmap.Conn} (hi : Inv cap lst hash s cs) (h : LogInv s) {o : Orc} (he : step cap lst hash o s = .ok s') : LogInv s' := by
  unfold step at he
  split at he
  · cases he; exact h.same rfl rfl rfl rfl
  · rename_i hpc
    have hb : busy s = [] := by have := hi.empty; simp only [Empty, hpc] at this; exact this.2.1
    have hq : s.qins = [] := by
      simp only [busy, List.append_eq_nil_iff, List.map_eq_nil_iff] at hb
      exact hb.1.1.2
    cases he
    exact h.same rfl rfl rfl (by simp [hq])
  · split at he
    · cases he; exact h.same rfl rfl rfl rfl
    · exact accept_log h he
  · split at he
    · cases he; exact h.same rfl rfl rfl rfl
    · exact attach_log h he
  · split at he
    · cases he; exact h.same rfl rfl rfl rfl
    · exact read_log h he
  · split at he
    · cases he; exact h.same rfl rfl rfl rfl
    · rename_i hpc _ id d l hq
      refine process_log h hq ?_ he
      have hnd := hi.nodup
      rw [busy, hq] at hnd
      have := (List.nodup_append.1 (List.nodup_append.1 (List.nodup_append.1 hnd).1).1).2.1
      rw [List.map_cons, List.nodup_cons] at this
      exact this.1
  · split at he
    · cases he; exact h.same rfl rfl rfl rfl
    · exact write_log h he
  · split at he
    · cases he; exact h.same rfl rfl rfl rfl
    · rename_i hpc _ id l hq
      refine close_log h ?_ he
      intro k hk
      exact ((hi.conn id k hk).closes (by simp [hq])).2

theorem reach_log {s : S} (h : Reach cap lst hash s) : LogInv s := by
  induction h with
  | new =>
    refine ⟨fun i => by simp [new, life, stage], fun i => .inr (by simp [new, wroteTo, sentTo, outOf]), fun i => by simp [new, readFrom, givenTo, pending], fun i _ => rfl⟩
  | step o hr ho hs ih =>
    obtain ⟨cs, hi⟩ := reach_inv hr
    exact step_log hi ih hs
  | @env s s' e hr he hs ih =>
    cases e with
    | accepted fd =>
      cases hs; exact ih.same rfl rfl rfl rfl
    | finished id =>
      obtain ⟨k, hk, -⟩ := he
      unfold envStep at hs
      simp only [hk] at hs
      split at hs
      · cases hs
      · cases hs
        exact ih.touch hk (k' := { k with bg := some true }) rfl rfl (m := []) (by simp) (by simp) (.inr (by simp [wroteTo, sentTo])) (by simp [readFrom, givenTo]) (fun _ _ => rfl)

/-- **C82**, safety: whatever happens on the sockets, whatever the handlers do and whenever others interfere, the thread never uses a connection that has been freed or a
place beyond the end of a queue, and no assertion fails; and neither do the background threads. -/
theorem loop_safe {s : S} (h : Reach cap lst hash s) :
    (∀ o : Orc, o.Ok cap s → ∃ s', step cap lst hash o s = .ok s') ∧ ∀ e : Env, e.Ok s → ∃ s', envStep e s = .ok s' := by
  obtain ⟨cs, hi⟩ := reach_inv h
  refine ⟨fun o ho => ?_, fun e he => ?_⟩
  · obtain ⟨s', -, a, -⟩ := step_inv hi ho
    exact ⟨s', a⟩
  · obtain ⟨s', a, -⟩ := env_inv hi he
    exact ⟨s', a⟩

/-- **C82**: every connection is opened once and closed at most once, and is not used before or after; it is in memory exactly between. -/
theorem one_life {s : S} (h : Reach cap lst hash s) (i : Nat) : ∃ x, life i s.log = some x ∧ (x = .live ↔ (s.heap i).isSome) := by
  have hl := reach_log h
  refine ⟨_, hl.life i, ?_⟩
  unfold stage
  by_cases hn : s.next ≤ i
  · rw [if_pos hn, hl.none i hn]; simp
  · rw [if_neg hn]
    split <;> simp_all

/-- **C82**: when the thread waits for events, everything read has been handled, in order; and every reply has been written completely, in order, also on connections closed since, unless
background work is going on or the socket failed. -/
theorem nothing_lost {s : S} (h : Reach cap lst hash s) (hw : s.pc = .wait) (i : Nat) :
    readFrom i s.log = givenTo i s.log ∧
      ((∀ k, s.heap i = some k → k.bg = none) → .broken i ∈ s.log ∨ wroteTo i s.log = sentTo i s.log) := by
  have hl := reach_log h
  obtain ⟨cs, hi⟩ := reach_inv h
  have hb : busy s = [] := by have := hi.empty; simp only [Empty, hw] at this; exact this.2.1
  refine ⟨?_, fun hbg => ?_⟩
  · have hq : s.qins = [] := by
      simp only [busy, List.append_eq_nil_iff, List.map_eq_nil_iff] at hb
      exact hb.1.1.2
    rw [hl.read i, hq]
    simp [pending]
  · rcases hl.out i with ho | ho
    · exact .inl ho
    · refine .inr ?_
      rw [ho]
      cases hk : s.heap i with
      | none => simp [outOf, hk]
      | some k =>
        have := ((hi.conn i k hk).idle (by simp [hb]) (hbg k hk)).1
        simp [outOf, hk, this]

/-- **C82**: no connection is forgotten.  When the thread waits for events, every connection is found by its number, and epoll waits for it to become readable, or its background work is going on,
or epoll reports the end of it; connections told to close have been closed, unless there is background work. -/
theorem none_forgotten {s : S} (h : Reach cap lst hash s) (hw : s.pc = .wait) {i : Nat} {k : Conn} (hk : s.heap i = some k) :
    Cmap.get hash s.table k.fd = some ⟨k.fd, i⟩ ∧ ((k.bg = none ∧ k.closed = false ∧ s.reg k.fd = some .read) ∨ k.bg = some false ∨ (k.bg = some true ∧ s.reg k.fd = some .write)) := by
  obtain ⟨cs, hi⟩ := reach_inv h
  have hb : busy s = [] := by have := hi.empty; simp only [Empty, hw] at this; exact this.2.1
  have hc := hi.conn i k hk
  refine ⟨(Cmap.get_holds hi.holds hi.fds k.fd _).2 ⟨hi.mem i k hk, rfl⟩, ?_⟩
  rcases hbg : k.bg with _ | _ | _
  · exact .inl ⟨rfl, (hc.idle (by simp [hb]) hbg).2, by rw [hc.reg, hbg]; rfl⟩
  · exact .inr (.inl rfl)
  · exact .inr (.inr ⟨rfl, by rw [hc.reg, hbg]; rfl⟩)

/-- **C82**: no socket is leaked.  At any time an open socket is a listening one, or that of a connection in memory, or a new one that epoll is going to report; and `nconns` is the number
of connections. -/
theorem none_leaked {s : S} (h : Reach cap lst hash s) :
    (∀ fd, s.isopen fd = true → lst fd = true ∨ (∃ i k, s.heap i = some k ∧ k.fd = fd) ∨ s.reg fd = some .read) ∧
      s.nconns = ((List.range s.next).filter fun i => (s.heap i).isSome).length := by
  obtain ⟨cs, hi⟩ := reach_inv h
  have hl := reach_log h
  refine ⟨fun fd ho => ?_, ?_⟩
  · by_cases hm : fd ∈ cs.map Cmap.Conn.fd
    · obtain ⟨c, hc, hcf⟩ := List.mem_map.1 hm
      obtain ⟨k, h1, h2⟩ := hi.ids c hc
      exact .inr (.inl ⟨c.id, k, h1, by rw [h2, hcf]⟩)
    · exact .inr (.inr (hi.waiting fd ho hm))
  · rw [hi.count, ← List.length_map Cmap.Conn.id]
    refine List.Perm.length_eq ?_
    rw [List.perm_ext_iff_of_nodup]
    · intro i
      rw [List.mem_map, List.mem_filter, List.mem_range]
      constructor
      · rintro ⟨c, hc, rfl⟩
        obtain ⟨k, h1, h2⟩ := hi.ids c hc
        exact ⟨(hi.conn _ _ h1).fresh, by simp [h1]⟩
      · rintro ⟨-, hs⟩
        obtain ⟨k, hk⟩ := Option.isSome_iff_exists.1 hs
        exact ⟨_, hi.mem i k hk, rfl⟩
    · have hcsn : cs.Nodup := (List.Pairwise.of_map (S := (· ≠ ·)) (R := (· ≠ ·)) Cmap.Conn.fd (fun a b hab e => hab (by rw [e])) hi.fds)
      refine List.pairwise_map.2 (List.Pairwise.imp_of_mem (fun {a b} ha hb hne hab => hne ?_) hcsn)
      obtain ⟨ka, h1, h2⟩ := hi.ids a ha
      obtain ⟨kb, h3, h4⟩ := hi.ids b hb
      rw [hab, h3] at h1
      simp only [Option.some.injEq] at h1
      cases a; cases b
      simp_all
    · exact List.nodup_range.filter _

/-- **C83**: when the thread waits for events, what it has added to a global counter is the number of times its handlers counted. -/
theorem counters_exact_partial {s : S} (h : Reach cap lst hash s) (hw : s.pc = .wait) : s.glob = counted s.log := by
  obtain ⟨cs, hi⟩ := reach_inv h
  have := hi.empty
  simp only [Empty, hw] at this
  rw [hi.total, this.2.2, Nat.add_zero]

/-! A run with two connections: the first is answered and closed, its number given to a third, whose request is handled in the background; the second stays. -/

/-- One step of a run, if what comes from outside is allowed. -/
def next1 (cap : Nat) (lst : Nat → Bool) (hash : Nat → Nat) (x : Orc ⊕ Env) (s : S) : Option S :=
  match x with
  | .inl o =>
    if (s.pc = .wait → o.events.length ≤ cap ∧ o.events.Nodup ∧ ∀ fd ∈ o.events, s.reg fd ≠ none) ∧ (s.pc = .attach → Op.count ∉ o.ops) then
      match step cap lst hash o s with
      | .ok s' => some s'
      | _ => none
    else none
  | .inr (.accepted fd) => if s.isopen fd = false then match envStep (.accepted fd) s with
      | .ok s' => some s'
      | _ => none
    else none
  | .inr (.finished id) => match s.heap id with
    | some k => if k.bg = some false then match envStep (.finished id) s with
      | .ok s' => some s'
      | _ => none
      else none
    | none => none

/-- A run. -/
def runAll (cap : Nat) (lst : Nat → Bool) (hash : Nat → Nat) : List (Orc ⊕ Env) → S → Option S
  | [], s => some s
  | x :: l, s => (next1 cap lst hash x s).bind (runAll cap lst hash l)

theorem next1_reach {x : Orc ⊕ Env} {s s' : S} (h : Reach cap lst hash s) (he : next1 cap lst hash x s = some s') : Reach cap lst hash s' := by
  unfold next1 at he
  split at he
  · split at he
    · rename_i o ho
      split at he
      · rename_i hs
        cases he
        exact .step o h ho hs
      · cases he
    · cases he
  · split at he
    · rename_i fd hfd
      split at he
      · rename_i hs
        cases he
        exact .env (.accepted fd) h hfd hs
      · cases he
    · cases he
  · split at he
    · rename_i id _ k hk
      split at he
      · rename_i hb
        split at he
        · rename_i hs
          cases he
          exact .env (.finished id) h ⟨k, hk, hb⟩ hs
        · cases he
      · cases he
    · cases he

theorem runAll_reach (l : List (Orc ⊕ Env)) {s s' : S} (h : Reach cap lst hash s) (he : runAll cap lst hash l s = some s') : Reach cap lst hash s' := by
  induction l generalizing s with
  | nil => cases he; exact h
  | cons x l ih =>
    simp only [runAll, Option.bind_eq_some_iff] at he
    obtain ⟨s1, h1, h2⟩ := he
    exact ih (next1_reach h h1) h2

/-- Nothing special from outside. -/
def quiet : Orc := ⟨[], true, [], true, .again⟩

/-- A step without anything from outside. -/
def tick : Orc ⊕ Env := .inl quiet

/-- The first round: connections 7 and 8 are accepted and asked; 7 is answered "hi" and closed, 8 is answered "o", and both are counted. -/
def round1 : List (Orc ⊕ Env) :=
  [tick, .inr (.accepted 7), .inr (.accepted 8), .inl { quiet with events := [7, 8] }, tick, tick, tick, tick,
   .inl { quiet with rd := .data [1, 2] }, .inl { quiet with rd := .data [3] }, tick,
   .inl { quiet with ops := [.count, .write [104, 105], .close] }, .inl { quiet with ops := [.count, .write [111]] }, tick,
   tick, tick, tick, tick, tick, tick]

/-- The second round: the number 7 is used again, and the request handled in the background. -/
def round2 : List (Orc ⊕ Env) :=
  [.inr (.accepted 7), .inl { quiet with events := [7] }, tick, tick, tick, .inl { quiet with rd := .data [9] }, tick,
   .inl { quiet with ops := [.write [110], .count, .bgwork true] }, tick, tick, tick, tick]

/-- The third: the background work ends, and the second connection is closed by the client. -/
def round3 : List (Orc ⊕ Env) :=
  [.inr (.finished 2), .inl { quiet with events := [8, 7] }, tick, tick, tick, .inl { quiet with ops := [.write [33]] }, tick,
   .inl { quiet with rd := .stop }, tick, tick, tick, tick, tick, tick, tick, tick]

/-- The state after the rounds, at `epoll_wait`. -/
def after (l : List (Orc ⊕ Env)) : Option S := runAll 4 (· == 3) id l (new (· == 3))

theorem after_reach {l : List (Orc ⊕ Env)} {s : S} (h : after l = some s) : Reach 4 (· == 3) id s := runAll_reach l .new h

/-- After two rounds: the first connection is closed and answered, the second waits for requests, the third does background work; everything counted. -/
example : ∃ s, Reach 4 (· == 3) id s ∧ s.pc = .wait ∧ life 0 s.log = some .dead ∧ life 1 s.log = some .live ∧ s.heap 2 = some ⟨7, false, [], some false, 0⟩ ∧
    wroteTo 0 s.log = [104, 105] ∧ readFrom 0 s.log = [1, 2] ∧ s.nconns = 2 ∧ s.isopen 8 = true ∧ s.glob = 3 := by
  have h : ∃ s, after (round1 ++ round2) = some s ∧ s.pc = .wait ∧ life 0 s.log = some .dead ∧ life 1 s.log = some .live ∧ s.heap 2 = some ⟨7, false, [], some false, 0⟩ ∧
    wroteTo 0 s.log = [104, 105] ∧ readFrom 0 s.log = [1, 2] ∧ s.nconns = 2 ∧ s.isopen 8 = true ∧ s.glob = 3 := by
    refine ⟨(after (round1 ++ round2)).get (by decide +kernel), by simp, ?_⟩
    decide +kernel
  obtain ⟨s, h1, h2⟩ := h
  exact ⟨s, after_reach h1, h2⟩

/-- After the third round: the background work has been answered, and the second connection is closed. -/
example : ∃ s, Reach 4 (· == 3) id s ∧ s.pc = .wait ∧ life 1 s.log = some .dead ∧ s.heap 2 = some ⟨7, false, [], none, 0⟩ ∧
    wroteTo 2 s.log = [110, 33] ∧ s.nconns = 1 ∧ s.isopen 8 = false := by
  have h : ∃ s, after (round1 ++ round2 ++ round3) = some s ∧ s.pc = .wait ∧ life 1 s.log = some .dead ∧ s.heap 2 = some ⟨7, false, [], none, 0⟩ ∧
    wroteTo 2 s.log = [110, 33] ∧ s.nconns = 1 ∧ s.isopen 8 = false := by
    refine ⟨(after (round1 ++ round2 ++ round3)).get (by decide +kernel), by simp, ?_⟩
    decide +kernel
  obtain ⟨s, h1, h2⟩ := h
  exact ⟨s, after_reach h1, h2⟩

/-- **C83** is false within a round: a request handled behind another one in the same round (STATS behind GET, sent in one go) is not shown what the other counted. -/
theorem counters_late : ∃ s, Reach 4 (· == 3) id s ∧ s.pc = .process ∧ s.glob = 0 ∧ counted s.log = 1 := by
  have h : ∃ s, after (round1.take 12) = some s ∧ s.pc = .process ∧ s.glob = 0 ∧ counted s.log = 1 := by
    refine ⟨(after (round1.take 12)).get (by decide +kernel), by simp, ?_⟩
    decide +kernel
  obtain ⟨s, h1, h2⟩ := h
  exact ⟨s, after_reach h1, h2⟩

end Verif.Net.Loop
