import Verif.Shard.AbsScan

/-!
What every shard operation does, as seen through its notifications.
-/

namespace Verif.Shard

open Verif.Map Function

/-- The entry a user would find under a key by looking through all buckets. -/
def shView (s : Sh) (k : Bytes) : Option Ent :=
  (((List.range s.map.nbuckets).map s.map.buckets).find? fun b => b.dib ≠ 0 ∧ b.ent.key = k).map Bucket.ent

theorem shView_rep {c : Ctx} {s : Sh} (h : Inv c s.map) (ho : s.map.ovf = false) : Rep s.map.cont (shView s) := by
  intro k e
  have hnd := h.nodup ho
  unfold shView
  constructor
  · intro he
    obtain ⟨b, hb, rfl⟩ := Option.map_eq_some_iff.1 he
    have h1 := List.mem_of_find?_eq_some hb
    have h2 := List.find?_some hb
    simp only [ne_eq, Bool.decide_and, decide_not, Bool.and_eq_true, Bool.not_eq_eq_eq_not, Bool.not_true,
      decide_eq_false_iff_not, decide_eq_true_eq] at h2
    obtain ⟨j, hj, rfl⟩ := List.mem_map.1 h1
    exact ⟨mem_cont.2 ⟨j, List.mem_range.1 hj, h2.1, rfl⟩, h2.2⟩
  · rintro ⟨he, rfl⟩
    obtain ⟨j, hj, hd, rfl⟩ := mem_cont.1 he
    cases hf : ((List.range s.map.nbuckets).map s.map.buckets).find?
        fun b => b.dib ≠ 0 ∧ b.ent.key = (s.map.buckets j).ent.key with
    | none =>
      exfalso
      have := List.find?_eq_none.1 hf (s.map.buckets j) (List.mem_map.2 ⟨j, List.mem_range.2 hj, rfl⟩)
      simp [hd] at this
    | some b =>
      have h1 := List.mem_of_find?_eq_some hf
      have h2 := List.find?_some hf
      simp only [ne_eq, Bool.decide_and, decide_not, Bool.and_eq_true, Bool.not_eq_eq_eq_not, Bool.not_true,
        decide_eq_false_iff_not, decide_eq_true_eq] at h2
      obtain ⟨j', hj', rfl⟩ := List.mem_map.1 h1
      have := Multiset.inj_on_of_nodup_map hnd _ (mem_cont.2 ⟨j', List.mem_range.1 hj', h2.1, rfl⟩) _ he h2.2
      simp [this]

theorem shView_key {c : Ctx} {s : Sh} (h : Inv c s.map) (ho : s.map.ovf = false) {k : Bytes} {e : Ent}
    (he : shView s k = some e) : e.key = k := ((shView_rep h ho k e).1 he).2

theorem rep_shView {c : Ctx} {s : Sh} (h : Inv c s.map) (ho : s.map.ovf = false) {f : Bytes → Option Ent}
    (hr : Rep s.map.cont f) : shView s = f := rep_unique (shView_rep h ho) hr

/-- An entry without its time of last access, which changes without notification. -/
def Ent.strip (e : Ent) : Ent := { e with time := 0 }

/-- The effect a notification announces. -/
def Ev.apply (f : Bytes → Option Ent) : Ev → (Bytes → Option Ent)
  | .inserted e => update f e.key (some (Ent.strip e))
  | .replaced e _ => update f e.key (some (Ent.strip e))
  | .deleted e | .expired e | .cleared e | .lowmem e => update f e.key none

/-- A notification fits the contents: an insertion is of a new key, and the entry replaced or removed is
the one stored. -/
def Ev.fits (f : Bytes → Option Ent) : Ev → Prop
  | .inserted e => f e.key = none
  | .replaced e o => o.key = e.key ∧ f e.key = some (Ent.strip o)
  | .deleted e | .expired e | .cleared e | .lowmem e => f e.key = some (Ent.strip e)

/-- Replaying notifications on contents `f` fits and gives `f'`. -/
def Replays : List Ev → (Bytes → Option Ent) → (Bytes → Option Ent) → Prop
  | [], f, f' => f' = f
  | ev :: evs, f, f' => ev.fits f ∧ Replays evs (ev.apply f) f'

theorem Replays.append {l1 l2 : List Ev} {f g h : Bytes → Option Ent} (h1 : Replays l1 f g) (h2 : Replays l2 g h) :
    Replays (l1 ++ l2) f h := by
  induction l1 generalizing f with
  | nil =>
    have : g = f := h1
    subst this; exact h2
  | cons a l ih => exact ⟨h1.1, ih h1.2⟩

/-- The entries written. -/
def Ev.written : Ev → List Ent
  | .inserted e => [e]
  | .replaced e _ => [e]
  | _ => []

/-- Contents without access times. -/
def stripped (f : Bytes → Option Ent) : Bytes → Option Ent := fun k => (f k).map Ent.strip

theorem stripped_update (f : Bytes → Option Ent) (k : Bytes) (v : Option Ent) :
    stripped (update f k v) = update (stripped f) k (v.map Ent.strip) := by
  funext j
  unfold stripped
  by_cases h : j = k
  · subst h; simp
  · simp [update_of_ne h]

/-- Whether a notification is of the right kind for the time. -/
def Ev.timely (now : Int) : Ev → Prop
  | .expired e => e.alive now = false
  | .inserted _ => True
  | .replaced _ o => o.alive now = true
  | .deleted e | .cleared e | .lowmem e => e.alive now = true

/-- The effect of an operation at time `now` that may write the keys `W`, on contents `f` and token counter
`cas`. -/
structure Eff (c : Ctx) (now : Int) (W : List Bytes) (f f' : Bytes → Option Ent) (cas cas' : Nat) (evs : List Ev) (seen : List Ent) : Prop where
  replay : Replays evs (stripped f) (stripped f')
  timely : ∀ ev ∈ evs, ev.timely now
  seen : ∀ e ∈ seen, e.alive now = true ∧ ∃ e0, f e.key = some e0 ∧ Ent.strip e0 = Ent.strip e
  mono : cas ≤ cas'
  fresh : ∀ ev ∈ evs, ∀ e ∈ ev.written, e.key ∈ W ∧ cas < e.id ∧ e.id ≤ cas' ∧ e.cas = if c.usecas then e.id else 0

theorem Ent.strip_alive (e : Ent) (now : Int) : (Ent.strip e).alive now = e.alive now := rfl

/-- The entry under a key carries that key. -/
def Keyed (f : Bytes → Option Ent) : Prop := ∀ k e, f k = some e → e.key = k

theorem Rep.keyed {s : Multiset Ent} {f : Bytes → Option Ent} (h : Rep s f) : Keyed f := fun k e he => ((h k e).1 he).2

theorem eff_same {W : List Bytes} {c : Ctx} {now : Int} {f : Bytes → Option Ent} {cas cas' : Nat} (h : cas ≤ cas') {seen : List Ent}
    (hs : ∀ e ∈ seen, e.alive now = true ∧ ∃ e0, f e.key = some e0 ∧ Ent.strip e0 = Ent.strip e) :
    Eff c now W f f cas cas' [] seen := ⟨rfl, by simp, hs, h, by simp⟩

theorem eff_remove {W : List Bytes} {c : Ctx} {now : Int} {f : Bytes → Option Ent} {key : Bytes} {e : Ent} (hf : f key = some e)
    (hk : Keyed f) {ev : Ev} (hev : ev = .expired e ∨ ev = .deleted e ∨ ev = .lowmem e) (ht : ev.timely now)
    {cas cas' : Nat} (hc : cas ≤ cas') {seen : List Ent}
    (hs : ∀ e ∈ seen, e.alive now = true ∧ ∃ e0, f e.key = some e0 ∧ Ent.strip e0 = Ent.strip e) :
    Eff c now W f (update f key none) cas cas' [ev] seen := by
  have hke := hk _ _ hf
  refine ⟨⟨?_, ?_⟩, by simpa using ht, hs, hc, ?_⟩
  · rcases hev with rfl | rfl | rfl <;> (simp only [Ev.fits, hke]; unfold stripped; rw [hf]; rfl)
  · rcases hev with rfl | rfl | rfl <;>
      (simp only [Ev.apply, hke]; show stripped (update f key none) = _; rw [stripped_update]; rfl)
  · rcases hev with rfl | rfl | rfl <;> simp [Ev.written]

theorem pLoad_eff {c : Ctx} (mem : Mem) (now : Int) (key : Bytes) (o : LoadOpts) {p : PS} (hk : Keyed p.f) :
    Eff c now [key] p.f (pLoad c mem now key o p).ps.f p.cas (pLoad c mem now key o p).ps.cas
      (pLoad c mem now key o p).evs (pLoad c mem now key o p).seen := by
  unfold pLoad
  cases hf : p.f key with
  | none => exact eff_same (le_refl _) (by simp)
  | some e =>
    have hke := hk _ _ hf
    simp only []
    split
    · rename_i ha
      set e1 := if o.notouch then e else { e with time := now } with he1
      have hs1 : Ent.strip e1 = Ent.strip e := by rw [he1]; split <;> rfl
      have hk1 : e1.key = key := by rw [he1]; split <;> exact hke
      have ha1 : e1.alive now = true := by rw [he1]; split <;> exact ha
      have hsame : stripped (update p.f key (some e1)) = stripped p.f := by
        rw [stripped_update]
        funext k
        by_cases hkk : k = key
        · subst hkk; rw [update_self]; unfold stripped; rw [hf]; simp [hs1]
        · rw [update_of_ne hkk]
      have hseen : ∀ x ∈ [e1], x.alive now = true ∧ ∃ e0, p.f x.key = some e0 ∧ Ent.strip e0 = Ent.strip x := by
        intro x hx
        rw [List.mem_singleton.1 hx]
        exact ⟨ha1, e, by rw [hk1]; exact hf, hs1.symm⟩
      have hplain : ∀ cas' seen, p.cas ≤ cas' → (∀ x ∈ seen, x ∈ [e1]) →
          Eff c now [key] p.f (update p.f key (some e1)) p.cas cas' [] seen := by
        intro cas' seen hc hs
        exact ⟨hsame, by simp, fun x hx => hseen x (hs x hx), hc, by simp⟩
      split
      · exact hplain _ _ (le_refl _) (by simp)
      · split
        · exact hplain _ _ (le_refl _) (by simp)
        · split
          · refine ⟨⟨?_, ?_⟩, ?_, hseen, Nat.le_succ _, ?_⟩
            · refine ⟨hk1, ?_⟩
              show stripped p.f key = _
              unfold stripped; rw [hf, hs1]; rfl
            · show stripped (update p.f key _) = _
              rw [stripped_update]; rfl
            · intro ev hev
              rw [List.mem_singleton.1 hev]
              exact ha1
            · intro ev hev
              rw [List.mem_singleton.1 hev]
              intro x hx
              rw [List.mem_singleton.1 hx]
              simp [mkEnt]
          · exact hplain _ _ (Nat.le_succ _) (by simp)
    · rename_i ha
      exact eff_remove hf hk (Or.inl rfl) (by simpa [Ev.timely] using ha) (le_refl _) (by simp)

theorem shown_seen {now : Int} {f : Bytes → Option Ent} {key : Bytes} {e : Ent} (hf : f key = some e) (hk : Keyed f)
    (ha : e.alive now = true) {α : Type} (cb : Option α) :
    ∀ x ∈ shown cb e, x.alive now = true ∧ ∃ e0, f x.key = some e0 ∧ Ent.strip e0 = Ent.strip x := by
  intro x hx
  unfold shown at hx
  split at hx
  · rw [List.mem_singleton.1 hx]
    exact ⟨ha, e, by rw [hk _ _ hf]; exact hf, rfl⟩
  · simp at hx

theorem pDelete_eff {c : Ctx} (now : Int) (key : Bytes) (cb : Option (Ent → Bool)) {p : PS} (hk : Keyed p.f) :
    Eff c now [] p.f (pDelete now key cb p).ps.f p.cas (pDelete now key cb p).ps.cas
      (pDelete now key cb p).evs (pDelete now key cb p).seen := by
  unfold pDelete
  cases hf : p.f key with
  | none => exact eff_same (le_refl _) (by simp)
  | some e =>
    simp only []
    split
    · rename_i ha
      split
      · exact eff_same (le_refl _) (shown_seen hf hk ha cb)
      · exact eff_remove hf hk (Or.inr (Or.inl rfl)) ha (le_refl _) (shown_seen hf hk ha cb)
    · rename_i ha
      exact eff_remove hf hk (Or.inl rfl) (by simpa [Ev.timely] using ha) (le_refl _) (by simp)

theorem newEnt_fields (p : PS) (c : Ctx) (now : Int) (key val : Bytes) (o : StoreOpts) (req : Int) :
    (p.newEnt c now key val o req).key = key ∧ (p.newEnt c now key val o req).id = p.cas + 1 ∧
    (p.newEnt c now key val o req).cas = if c.usecas then p.cas + 1 else 0 := ⟨rfl, rfl, rfl⟩

theorem live_some {p : PS} {now : Int} {key : Bytes} {e : Ent} (h : p.live now key = some e) :
    p.f key = some e ∧ e.alive now = true := by
  unfold PS.live at h
  split at h
  · rename_i x hx
    split at h
    · rename_i ha
      simp only [Option.some.injEq] at h
      subst h
      exact ⟨hx, ha⟩
    · simp at h
  · simp at h

/-- The notification for an expired entry that is in the way. -/
theorem deadEvs_replay {p : PS} (hk : Keyed p.f) {now : Int} {key : Bytes} (h : p.live now key = none) :
    Replays (p.deadEvs now key) (stripped p.f) (update (stripped p.f) key none) ∧
    ∀ ev ∈ p.deadEvs now key, ev.timely now ∧ ev.written = [] := by
  unfold PS.deadEvs
  cases hf : p.f key with
  | none =>
    refine ⟨?_, by simp⟩
    show update (stripped p.f) key none = stripped p.f
    rw [update_eq_self_iff]
    unfold stripped; rw [hf]; rfl
  | some e =>
    unfold PS.live at h
    rw [hf] at h
    simp only [] at h
    split at h
    · simp at h
    · rename_i ha
      simp only [if_neg ha]
      have hke := hk _ _ hf
      refine ⟨⟨?_, ?_⟩, ?_⟩
      · show stripped p.f e.key = _
        unfold stripped; rw [hke, hf]; rfl
      · show update (stripped p.f) key none = update (stripped p.f) e.key none
        rw [hke]
      · intro ev hev
        rw [List.mem_singleton.1 hev]
        exact ⟨by simpa [Ev.timely] using ha, rfl⟩

theorem pStore_eff {c : Ctx} {now : Int} {key val : Bytes} {o : StoreOpts} {req : Int} {p : PS} {q : PR} (hk : Keyed p.f)
    (h : PStore c now key val o req p q) : Eff c now [key] p.f q.ps.f p.cas q.ps.cas q.evs q.seen := by
  unfold PStore at h
  simp only [] at h
  obtain ⟨n1, n2, n3⟩ := newEnt_fields p c now key val o req
  set e := p.newEnt c now key val o req with he
  have hfr : ∀ x ∈ [e], x.key ∈ [key] ∧ p.cas < x.id ∧ x.id ≤ p.cas + 1 ∧ x.cas = if c.usecas then x.id else 0 := by
    intro x hx
    rw [List.mem_singleton.1 hx, n1, n2, n3]
    exact ⟨by simp, by omega, le_refl _, rfl⟩
  cases hl : p.live now key with
  | some old =>
    rw [hl] at h
    obtain ⟨hf, ha⟩ := live_some hl
    simp only [] at h
    split at h
    · rw [h]; exact eff_same (Nat.le_succ _) (by simp)
    · split at h
      · rw [h]; exact eff_same (Nat.le_succ _) (shown_seen hf hk ha _)
      · rw [h]
        refine ⟨⟨⟨?_, ?_⟩, ?_⟩, ?_, shown_seen hf hk ha _, Nat.le_succ _, ?_⟩
        · rw [n1]; exact hk _ _ hf
        · rw [n1]; unfold stripped; rw [hf]; rfl
        · show stripped (update p.f key (some e)) = _
          rw [stripped_update]
          simp only [Ev.apply, n1]; rfl
        · intro ev hev
          rw [List.mem_singleton.1 hev]; exact ha
        · intro ev hev
          rw [List.mem_singleton.1 hev]; exact hfr
  | none =>
    rw [hl] at h
    simp only [] at h
    obtain ⟨hd1, hd2⟩ := deadEvs_replay hk hl
    split at h
    · rw [h]
      refine ⟨?_, fun ev hev => (hd2 ev hev).1, by simp, Nat.le_succ _, ?_⟩
      · show Replays _ _ (stripped (update p.f key none))
        rw [stripped_update]; exact hd1
      · intro ev hev x hx
        rw [(hd2 ev hev).2] at hx
        simp at hx
    · rcases h with h | ⟨_, hkn, v, ev, hev, hvk, hfv, h⟩
      · rw [h]
        refine ⟨?_, ?_, by simp, Nat.le_succ _, ?_⟩
        · apply hd1.append
          refine ⟨?_, ?_⟩
          · show update (stripped p.f) key none e.key = none
            rw [n1, update_self]
          · show stripped (update p.f key (some e)) = _
            simp only [Ev.apply]
            rw [stripped_update, n1, update_idem]; rfl
        · intro ev hev
          rcases List.mem_append.1 hev with hev | hev
          · exact (hd2 ev hev).1
          · rw [List.mem_singleton.1 hev]; trivial
        · intro ev hev x hx
          rcases List.mem_append.1 hev with hev | hev
          · rw [(hd2 ev hev).2] at hx
            simp at hx
          · rw [List.mem_singleton.1 hev] at hx
            exact hfr x hx
      · rw [h]
        have hev' : ev = .expired v ∨ ev = .lowmem v := by
          rcases hev with ⟨_, h⟩ | ⟨_, h⟩
          · exact Or.inl h
          · exact Or.inr h
        have h1 : Replays [ev] (stripped p.f) (update (stripped p.f) v.key none) := by
          rcases hev' with rfl | rfl <;>
            exact ⟨by show stripped p.f v.key = _; unfold stripped; rw [hfv]; rfl, rfl⟩
        refine ⟨?_, ?_, by simp, Nat.le_succ _, ?_⟩
        · refine h1.append (l2 := [.inserted e]) ⟨?_, ?_⟩
          · show update (stripped p.f) v.key none e.key = none
            rw [n1, update_of_ne (Ne.symm hvk)]
            unfold stripped; rw [hkn]; rfl
          · show stripped (update (update p.f key (some e)) v.key none) = _
            simp only [Ev.apply]
            rw [stripped_update, stripped_update, n1, update_comm hvk]; rfl
        · intro x hx
          simp only [List.mem_cons, List.not_mem_nil, or_false] at hx
          rcases hx with rfl | rfl
          · rcases hev with ⟨ha, rfl⟩ | ⟨ha, rfl⟩ <;> exact ha
          · trivial
        · intro x hx y hy
          simp only [List.mem_cons, List.not_mem_nil, or_false] at hx
          rcases hx with rfl | rfl
          · rcases hev' with rfl | rfl <;> simp [Ev.written] at hy
          · exact hfr y hy

/-- Removing distinct stored entries one after the other. -/
theorem removal_replay (evs : List Ev) (f g : Bytes → Option Ent) (hk : Keyed f)
    (hkind : ∀ ev ∈ evs, ∃ e, (ev = .expired e ∨ ev = .deleted e ∨ ev = .cleared e) ∧ f e.key = some e)
    (hone : ((evs.flatMap Ev.gone).map Ent.key).Nodup)
    (hg : ∀ k, g k = if k ∈ (evs.flatMap Ev.gone).map Ent.key then none else f k) :
    Replays evs (stripped f) (stripped g) := by
  induction evs generalizing f with
  | nil =>
    have : g = f := by funext k; rw [hg]; simp
    rw [this]; rfl
  | cons ev evs ih =>
    obtain ⟨e, he, hf⟩ := hkind ev (by simp)
    have hgone : ev.gone = [e] := by rcases he with rfl | rfl | rfl <;> rfl
    rw [List.flatMap_cons, hgone, List.map_append, List.map_cons, List.map_nil] at hone
    have hone2 := (List.nodup_cons.1 hone)
    have h1 : ev.fits (stripped f) := by
      rcases he with rfl | rfl | rfl <;> (show stripped f e.key = _; unfold stripped; rw [hf]; rfl)
    have h2 : ev.apply (stripped f) = stripped (update f e.key none) := by
      rw [stripped_update]
      rcases he with rfl | rfl | rfl <;> rfl
    refine ⟨h1, ?_⟩
    rw [h2]
    apply ih
    · intro k x hx
      by_cases hkk : k = e.key
      · subst hkk; rw [update_self] at hx; simp at hx
      · rw [update_of_ne hkk] at hx; exact hk _ _ hx
    · intro ev' hev'
      obtain ⟨e', he', hf'⟩ := hkind ev' (by simp [hev'])
      refine ⟨e', he', ?_⟩
      have : e'.key ≠ e.key := by
        intro hh
        apply hone2.1
        show e.key ∈ (evs.flatMap Ev.gone).map Ent.key
        refine List.mem_map.2 ⟨e', List.mem_flatMap.2 ⟨ev', hev', ?_⟩, hh⟩
        rcases he' with rfl | rfl | rfl <;> simp [Ev.gone]
      rw [update_of_ne this]; exact hf'
    · exact hone2.2
    · intro k
      rw [hg k, List.flatMap_cons, hgone]
      by_cases hkk : k = e.key
      · subst hkk; simp
      · rw [update_of_ne hkk]
        have : (k ∈ List.map Ent.key ([e] ++ List.flatMap Ev.gone evs)) ↔ k ∈ List.map Ent.key (List.flatMap Ev.gone evs) := by
          rw [List.cons_append, List.map_cons, List.mem_cons, List.nil_append, or_iff_right hkk]
        exact if_congr this rfl rfl

theorem pScan_eff {c : Ctx} {now : Int} {act : List Ent → Ent → Act} {p : PS} {f' : Bytes → Option Ent} {evs : List Ev}
    {seen : List Ent} {stopped : Bool} (hk : Keyed p.f) (h : PScan now act p f' evs seen stopped) :
    Eff c now [] p.f f' p.cas p.cas evs seen := by
  refine ⟨?_, ?_, ?_, le_refl _, ?_⟩
  · apply removal_replay evs p.f f' hk
    · intro ev hev
      rcases h.kinds ev hev with ⟨e, h1, _, h2⟩ | ⟨e, h1, _, h2⟩
      · exact ⟨e, Or.inl h1, h2⟩
      · exact ⟨e, Or.inr (Or.inl h1), h2⟩
    · exact h.once
    · intro k; rw [h.after]; rfl
  · intro ev hev
    rcases h.kinds ev hev with ⟨e, h1, h2, _⟩ | ⟨e, h1, h2, _⟩ <;> (subst h1; exact h2)
  · intro e he
    exact ⟨(h.live e he).1, e, (h.live e he).2, rfl⟩
  · intro ev hev
    rcases h.kinds ev hev with ⟨e, h1, h2, _⟩ | ⟨e, h1, h2, _⟩ <;> (subst h1; simp [Ev.written])

theorem pClear_eff {c : Ctx} {now : Int} {p : PS} {evs : List Ev} (hk : Keyed p.f) (h : PClear now p evs) :
    Eff c now [] p.f (fun _ => none) p.cas p.cas evs [] := by
  refine ⟨?_, ?_, by simp, le_refl _, ?_⟩
  · apply removal_replay evs p.f _ hk
    · intro ev hev
      rcases h.kinds ev hev with ⟨e, h1, _, h2⟩ | ⟨e, h1, _, h2⟩
      · exact ⟨e, Or.inl h1, h2⟩
      · exact ⟨e, Or.inr (Or.inr h1), h2⟩
    · exact h.once
    · intro k
      split
      · rfl
      · rename_i hn
        cases hf : p.f k with
        | none => rfl
        | some e =>
          exfalso
          apply hn
          exact List.mem_map.2 ⟨e, h.all k e hf, hk _ _ hf⟩
  · intro ev hev
    rcases h.kinds ev hev with ⟨e, h1, h2, _⟩ | ⟨e, h1, h2, _⟩ <;> (subst h1; exact h2)
  · intro ev hev
    rcases h.kinds ev hev with ⟨e, h1, h2, _⟩ | ⟨e, h1, h2, _⟩ <;> (subst h1; simp [Ev.written])

/-! ### The operations -/

/-- The effect of an operation on a shard, in terms of what is in its buckets. -/
def ShEff (c : Ctx) (now : Int) (W : List Bytes) (s : Sh) (r : Res) : Prop :=
  Inv c r.sh.map ∧ (r.sh.map.ovf = false → s.map.ovf = false ∧
    Eff c now W (shView s) (shView r.sh) s.cas r.sh.cas r.evs r.seen)

theorem shEff_of {c : Ctx} {now : Int} {W : List Bytes} {s : Sh} {r : Res} (h : Inv c s.map) (hi : Inv c r.sh.map)
    (hs : r.sh.map.ovf = false → s.map.ovf = false ∧ ∀ p, SRep s p → Keyed p.f →
      ∃ q : PS, SRep r.sh q ∧ Eff c now W p.f q.f p.cas q.cas r.evs r.seen) : ShEff c now W s r := by
  refine ⟨hi, ?_⟩
  intro ho
  obtain ⟨ho0, hall⟩ := hs ho
  refine ⟨ho0, ?_⟩
  have hr := shView_rep h ho0
  obtain ⟨q, hq, he⟩ := hall ⟨shView s, s.cas⟩ ⟨hr, rfl⟩ hr.keyed
  rw [rep_shView hi ho hq.1, hq.2]
  exact he

theorem loadOp_eff {c : Ctx} (hv : c.Valid) (mem : Mem) (now : Int) (key : Bytes) (o : LoadOpts) {s : Sh}
    (h : Inv c s.map) : ∃ r, loadOp c mem now key o s = .val r ∧ ShEff c now [key] s r := by
  obtain ⟨r, hr, hi, ho, hs⟩ := loadOp_spec hv mem now key o h
  refine ⟨r, hr, shEff_of h hi fun ho' => ⟨ho ▸ ho', fun p hp hk => ?_⟩⟩
  obtain ⟨h1, _, h3, h4⟩ := hs (ho ▸ ho') p hp
  refine ⟨_, h1, ?_⟩
  rw [h3, h4]
  exact pLoad_eff mem now key o hk

theorem deleteOp_eff {c : Ctx} (hv : c.Valid) (mem : Mem) (now : Int) (key : Bytes) (cb : Option (Ent → Bool)) {s : Sh}
    (h : Inv c s.map) :
    (∃ r, deleteOp c mem now key cb s = .val r ∧ ShEff c now [] s r) ∨ deleteOp c mem now key cb s = .abort true := by
  rcases deleteOp_spec hv mem now key cb h with ⟨r, hr, hi, hs⟩ | ha
  · left
    refine ⟨r, hr, shEff_of h hi fun ho' => ⟨(hs ho').1, fun p hp hk => ?_⟩⟩
    obtain ⟨h1, _, h3, h4⟩ := (hs ho').2 p hp
    refine ⟨_, h1, ?_⟩
    rw [h3, h4]
    exact pDelete_eff now key cb hk
  · right; exact ha

theorem storeOp_eff {c : Ctx} (hv : c.Valid) (mem : Mem) (now : Int) (key val : Bytes) (o : StoreOpts) {s : Sh}
    (h : Inv c s.map) {req : Int} (hreq : reqExpires o now = .val req) (hmem : mem.ent = true) :
    (∃ r, storeOp c mem now key val o s = .val r ∧ ShEff c now [key] s r) ∨ storeOp c mem now key val o s = .abort true := by
  rcases storeOp_spec hv mem now key val o h hreq hmem with ⟨r, hr, hi, _, hs⟩ | ha
  · left
    refine ⟨r, hr, shEff_of h hi fun ho' => ⟨(hs ho').1, fun p hp hk => ?_⟩⟩
    obtain ⟨q, h1, _, h3, h4, h5⟩ := (hs ho').2 p hp
    refine ⟨_, h1, ?_⟩
    rw [h3, h4]
    split at h5
    · rw [h5]; exact eff_same (Nat.le_succ _) (by simp)
    · exact pStore_eff hk h5
  · right; exact ha

theorem iterOp_eff {c : Ctx} (hv : c.Valid) (mem : Mem) (now : Int) (cb : Option (List Ent → Ent → Act)) {s : Sh}
    (h : Inv c s.map) : ∃ r, iterOp c mem now cb s = .val r ∧ ShEff c now [] s r := by
  obtain ⟨r, hr, hi, hs⟩ := iterOp_spec hv mem now cb h
  refine ⟨r, hr, shEff_of h hi fun ho' => ⟨(hs ho').1, fun p hp hk => ?_⟩⟩
  obtain ⟨q, seen, stopped, h1, h2, h3, _, h5⟩ := (hs ho').2 p hp
  refine ⟨q, h1, ?_⟩
  have he := pScan_eff (c := c) hk h3
  rw [h2, h5]
  split
  · exact he
  · exact ⟨he.replay, he.timely, by simp, he.mono, he.fresh⟩

theorem sweepOp_eff {c : Ctx} (hv : c.Valid) (mem : Mem) (now : Int) {s : Sh} (h : Inv c s.map) :
    ∃ r sw kp, sweepOp c mem now s = .val (r, sw, kp) ∧ ShEff c now [] s r := by
  obtain ⟨r, sw, kp, hr, hi, hs⟩ := sweepOp_spec hv mem now h
  have hseen : r.seen = [] := by
    unfold sweepOp at hr
    obtain ⟨st', h1, h2, _⟩ := scan_start hv now (fun _ _ => .cont) h
    obtain ⟨m', hm, _⟩ := tryShrink_spec hv h2 mem.tbl
    rw [h1] at hr
    simp only [Out.bind, hm, ofLoop, Out.val.injEq, Prod.mk.injEq] at hr
    rw [← hr.1]
  refine ⟨r, sw, kp, hr, shEff_of h hi fun ho' => ⟨(hs ho').1, fun p hp hk => ?_⟩⟩
  obtain ⟨q, seen, h1, h2, h3, _, _⟩ := (hs ho').2.2 p hp
  refine ⟨q, h1, ?_⟩
  have he := pScan_eff (c := c) hk h3
  rw [h2, hseen]
  exact ⟨he.replay, he.timely, by simp, he.mono, he.fresh⟩

theorem clearOp_eff {c : Ctx} (hv : c.Valid) (mem : Mem) (now : Int) {s : Sh} (h : Inv c s.map) (hm : mem.tbl = true) :
    ∃ r, clearOp c mem now s = .val r ∧ ShEff c now [] s r := by
  obtain ⟨r, hr, hi, _, hseen, hs⟩ := clearOp_spec hv mem now h hm
  refine ⟨r, hr, shEff_of h hi fun ho' => ⟨(hs ho').1, fun p hp hk => ?_⟩⟩
  obtain ⟨h1, h2⟩ := (hs ho').2 p hp
  refine ⟨_, h1, ?_⟩
  rw [hseen]
  exact pClear_eff hk h2

end Verif.Shard
