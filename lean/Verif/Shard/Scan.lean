import Verif.Map.Shift
import Verif.Shard.AbsStore

/-!
What a scan over the buckets (`iterop`, `sweepop`, `entryiter`) does.
-/

namespace Verif.Shard

open Verif.Map Function

/-- The entry a notification is about (the one leaving, for a replacement). -/
def Ev.gone : Ev → List Ent
  | .inserted _ => []
  | .replaced _ o => [o]
  | .expired e | .deleted e | .cleared e | .lowmem e => [e]

/-- Whether an answer of a callback removes the entry. -/
def Act.del : Act → Bool
  | .delete | .deleteStop => true
  | _ => false

/-- Whether an answer of a callback ends the scan. -/
def Act.stops : Act → Bool
  | .stop | .deleteStop => true
  | _ => false

/-- Entries the callback asked to delete, given the ones shown before and now. -/
def dels (act : List Ent → Ent → Act) : List Ent → List Ent → List Ent
  | _, [] => []
  | pre, e :: l => (if (act pre e).del then [e] else []) ++ dels act (pre ++ [e]) l

/-- The deletions among the notifications. -/
def Ev.deletedEnt : Ev → Option Ent
  | .deleted e => some e
  | _ => none

/-- What happened between two scan states. -/
structure Step (now : Int) (act : List Ent → Ent → Act) (st st' : Scan) (evs : List Ev) (seen : List Ent) : Prop where
  evs_eq : st'.evs = st.evs ++ evs
  seen_eq : st'.seen = st.seen ++ seen
  cont : st'.map.cont + (evs.flatMap Ev.gone : List Ent) = st.map.cont
  kinds : ∀ ev ∈ evs, (∃ e, ev = .expired e ∧ e.alive now = false) ∨ (∃ e, ev = .deleted e ∧ e.alive now = true)
  live : ∀ e ∈ seen, e.alive now = true ∧ e ∈ st.map.cont
  dels : evs.filterMap Ev.deletedEnt = dels act st.seen seen

/-- Whether the scan stopped early: the callback said so on the last entry shown. -/
def stoppedBy (act : List Ent → Ent → Act) : List Ent → List Ent → Bool
  | _, [] => false
  | pre, e :: l => (act pre e).stops || stoppedBy act (pre ++ [e]) l

theorem scanLoop_spec {c : Ctx} (hv : c.Valid) (now : Int) (act : List Ent → Ent → Act) (fuel i : Nat) (st : Scan)
    (h : Inv c st.map) (hs : st.stopped = false) (hfuel : (st.map.nbuckets - i) + st.map.count + 1 ≤ fuel)
    (K : Ent → Prop)
    (hK : ∀ j, j < i → j < st.map.nbuckets → (st.map.buckets j).dib ≠ 0 → K (st.map.buckets j).ent ∨ (st.map.buckets j).ent ∈ st.seen) :
    ∃ st', scanLoop now act fuel i st = .val st' ∧ Inv c st'.map ∧ st'.map.ovf = st.map.ovf ∧
      st'.map.total = st.map.total ∧ st'.map.nbuckets = st.map.nbuckets ∧
      (st'.stopped = false → st.map.nbuckets ≤ st'.pos) ∧
      (∀ j, j < st'.pos → j < st'.map.nbuckets → (st'.map.buckets j).dib ≠ 0 →
        K (st'.map.buckets j).ent ∨ (st'.map.buckets j).ent ∈ st'.seen) ∧
      (st.map.ovf = false → ∃ evs seen, Step now act st st' evs seen ∧ st'.stopped = stoppedBy act st.seen seen) := by
  induction fuel generalizing i st with
  | zero => omega
  | succ fuel ih =>
    unfold scanLoop
    by_cases hi : i < st.map.nbuckets
    · rw [if_pos hi]
      simp only []
      by_cases hd : (st.map.buckets i).dib = 0
      · rw [if_pos hd]
        apply ih _ _ h hs (by omega)
        intro j hj hjn hjd
        by_cases hji : j = i
        · subst hji; exact absurd hd hjd
        · exact hK j (by omega) hjn hjd
      · rw [if_neg hd]
        obtain ⟨m, hm, him, hov, hcnt, htot, hes, hnb, hga, _, hcont⟩ := delbkt_spec hv h hi hd
        have hmv := (delbkt_moves hv h hi hd hm).1
        have hin : (st.map.buckets i).ent ∈ st.map.cont := mem_cont.2 ⟨i, hi, hd, rfl⟩
        have hKm : ∀ j, j < i → j < m.nbuckets → (m.buckets j).dib ≠ 0 → K (m.buckets j).ent ∨ (m.buckets j).ent ∈ st.seen := by
          intro j hj hjn hjd
          obtain ⟨j', hj', hd', he'⟩ := hmv j hj hjd
          rw [he']
          exact hK j' hj' (by omega) hd'
        by_cases ha : (st.map.buckets i).ent.alive now = true
        · rw [if_neg (by simp [ha])]
          cases hact : act st.seen (st.map.buckets i).ent with
          | cont =>
            simp only []
            obtain ⟨st', h1, h2, h3, h4, h5, h6, h7, h8⟩ := ih (i + 1) { st with seen := st.seen ++ [(st.map.buckets i).ent] } h hs (by simp only []; omega) (by
              intro j hj hjn hjd
              simp only [] at hjn hjd ⊢
              by_cases hji : j = i
              · subst hji; right; simp
              · rcases hK j (by omega) hjn hjd with h' | h'
                · left; exact h'
                · right; simp [h'])
            refine ⟨st', h1, h2, h3, h4, h5, h6, h7, ?_⟩
            intro ho
            obtain ⟨evs, seen, hst, hstop⟩ := h8 ho
            refine ⟨evs, (st.map.buckets i).ent :: seen, ⟨hst.evs_eq, ?_, hst.cont, hst.kinds, ?_, ?_⟩, ?_⟩
            · rw [hst.seen_eq]; simp
            · intro e he
              rcases List.mem_cons.1 he with rfl | he
              · exact ⟨ha, hin⟩
              · exact hst.live e he
            · rw [hst.dels]; simp [Verif.Shard.dels, hact, Act.del]
            · rw [hstop]; simp [stoppedBy, hact, Act.stops]
          | stop =>
            refine ⟨_, rfl, h, rfl, rfl, rfl, by simp, ?_, ?_⟩
            · intro j hj hjn hjd
              simp only [] at hj hjn hjd ⊢
              by_cases hji : j = i
              · subst hji; right; simp
              · rcases hK j (by omega) hjn hjd with h' | h'
                · left; exact h'
                · right; simp [h']
            · intro ho
              refine ⟨[], [(st.map.buckets i).ent], ⟨by simp, rfl, by simp, by simp, ?_, ?_⟩, ?_⟩
              · intro e he
                rw [List.mem_singleton.1 he]
                exact ⟨ha, hin⟩
              · simp [Verif.Shard.dels, hact, Act.del]
              · simp [stoppedBy, hact, Act.stops]
          | delete =>
            simp only [hm, ofLoop, Out.bind]
            obtain ⟨st', h1, h2, h3, h4, h5, h6, h7, h8⟩ := ih i ⟨m, st.evs ++ [.deleted (st.map.buckets i).ent],
                st.seen ++ [(st.map.buckets i).ent], st.stopped, st.pos⟩ him hs (by simp only []; omega) (by
              intro j hj hjn hjd
              rcases hKm j hj hjn hjd with h' | h'
              · left; exact h'
              · right; simp [h'])
            refine ⟨st', h1, h2, h3.trans hov, h4.trans htot, h5.trans hnb, ?_, h7, ?_⟩
            · intro hf; have := h6 hf; simp only [] at this; omega
            · intro ho
              obtain ⟨evs, seen, hst, hstop⟩ := h8 (hov.trans ho)
              refine ⟨.deleted (st.map.buckets i).ent :: evs, (st.map.buckets i).ent :: seen, ⟨?_, ?_, ?_, ?_, ?_, ?_⟩, ?_⟩
              · rw [hst.evs_eq]; simp
              · rw [hst.seen_eq]; simp
              · have := hst.cont
                simp only [] at this
                rw [← hcont ho, ← this]
                simp [Ev.gone]
                rw [← Multiset.cons_coe, ← Multiset.singleton_add]
                abel
              · intro ev hev
                rcases List.mem_cons.1 hev with rfl | hev
                · right; exact ⟨_, rfl, ha⟩
                · exact hst.kinds ev hev
              · intro e he
                rcases List.mem_cons.1 he with rfl | he
                · exact ⟨ha, hin⟩
                · obtain ⟨h', h''⟩ := hst.live e he
                  refine ⟨h', ?_⟩
                  rw [← hcont ho]
                  exact Multiset.mem_add.2 (Or.inl h'')
              · rw [List.filterMap_cons]
                simp only [Ev.deletedEnt]
                rw [hst.dels]; simp [Verif.Shard.dels, hact, Act.del]
              · rw [hstop]; simp [stoppedBy, hact, Act.stops]
          | deleteStop =>
            simp only [hm, ofLoop, Out.bind]
            refine ⟨_, rfl, him, hov, htot, hnb, by simp, ?_, ?_⟩
            · intro j hj hjn hjd
              simp only [] at hj hjn hjd ⊢
              rcases hKm j hj hjn hjd with h' | h'
              · left; exact h'
              · right; simp [h']
            · intro ho
              refine ⟨[.deleted (st.map.buckets i).ent], [(st.map.buckets i).ent], ⟨rfl, rfl, ?_, ?_, ?_, ?_⟩, ?_⟩
              · simpa [Ev.gone] using hcont ho
              · intro ev hev
                right
                exact ⟨_, List.mem_singleton.1 hev, ha⟩
              · intro e he
                rw [List.mem_singleton.1 he]
                exact ⟨ha, hin⟩
              · simp [Verif.Shard.dels, hact, Act.del, Ev.deletedEnt]
              · simp [stoppedBy, hact, Act.stops]
        · have ha2 : (st.map.buckets i).ent.alive now = false := by simpa using ha
          rw [if_pos (by simp [ha2])]
          simp only [hm, ofLoop, Out.bind]
          obtain ⟨st', h1, h2, h3, h4, h5, h6, h7, h8⟩ := ih i ⟨m, st.evs ++ [.expired (st.map.buckets i).ent],
              st.seen, st.stopped, st.pos⟩ him hs (by simp only []; omega) hKm
          refine ⟨st', h1, h2, h3.trans hov, h4.trans htot, h5.trans hnb, ?_, h7, ?_⟩
          · intro hf; have := h6 hf; simp only [] at this; omega
          · intro ho
            obtain ⟨evs, seen, hst, hstop⟩ := h8 (hov.trans ho)
            refine ⟨.expired (st.map.buckets i).ent :: evs, seen, ⟨?_, hst.seen_eq, ?_, ?_, ?_, ?_⟩, hstop⟩
            · rw [hst.evs_eq]; simp
            · have := hst.cont
              simp only [] at this
              rw [← hcont ho, ← this]
              simp [Ev.gone]
              rw [← Multiset.cons_coe, ← Multiset.singleton_add]
              abel
            · intro ev hev
              rcases List.mem_cons.1 hev with rfl | hev
              · left; exact ⟨_, rfl, ha2⟩
              · exact hst.kinds ev hev
            · intro e he
              obtain ⟨h', h''⟩ := hst.live e he
              refine ⟨h', ?_⟩
              rw [← hcont ho]
              exact Multiset.mem_add.2 (Or.inl h'')
            · rw [List.filterMap_cons]
              simp only [Ev.deletedEnt]
              exact hst.dels
    · rw [if_neg hi]
      refine ⟨_, rfl, h, rfl, rfl, rfl, fun _ => by simp only []; omega, ?_, ?_⟩
      · intro j hj hjn hjd
        exact hK j hj hjn hjd
      · intro ho
        exact ⟨[], [], ⟨by simp, by simp, by simp, by simp, by simp, by simp [Verif.Shard.dels]⟩, by simp [stoppedBy, hs]⟩

/-! ### Exactly once -/

theorem cont_remove {b : Nat → Bucket} {n j : Nat} (hj : j < n) (hd : (b j).dib ≠ 0) :
    cont (update b j emptyBucket) n + {(b j).ent} = cont b n := by
  have := cont_update b hj emptyBucket
  rw [show bc (b j) = {(b j).ent} by simp [bc, hd]] at this
  simpa [bc, emptyBucket] using this

/-- Entries at different places are different. -/
theorem ent_inj {b : Nat → Bucket} {n j j' : Nat} (hnd : (cont b n).Nodup) (hj : j < n) (hj' : j' < n)
    (hd : (b j).dib ≠ 0) (hd' : (b j').dib ≠ 0) (he : (b j).ent = (b j').ent) : j = j' := by
  by_contra hne
  have h1 := cont_remove hj hd
  rw [← h1, Multiset.nodup_add] at hnd
  have : (b j).ent ∈ cont (update b j emptyBucket) n := by
    refine mem_cont.2 ⟨j', hj', ?_, ?_⟩
    · rw [update_of_ne (Ne.symm hne)]; exact hd'
    · rw [update_of_ne (Ne.symm hne)]; exact he.symm
  exact Multiset.disjoint_left.1 hnd.2.2 this (by simp)

/-- Without a deletion during the scan, or when no cluster wraps around the end of the array, no
entry is shown twice. -/
theorem scanLoop_once {c : Ctx} (hv : c.Valid) (now : Int) (act : List Ent → Ent → Act) (fuel i : Nat) (st st' : Scan)
    (h : Inv c st.map) (ho : st.map.ovf = false)
    (hq : (st.map.buckets 0).dib ≤ 1 ∨
      (∀ e ∈ st.map.cont, e.alive now = true) ∧ ∀ pre e, (act pre e).del = false)
    (hnd : st.seen.Nodup)
    (hnew : ∀ j, i ≤ j → j < st.map.nbuckets → (st.map.buckets j).dib ≠ 0 → (st.map.buckets j).ent ∉ st.seen)
    (hr : scanLoop now act fuel i st = .val st') : st'.seen.Nodup := by
  induction fuel generalizing i st with
  | zero => simp [scanLoop] at hr
  | succ fuel ih =>
    unfold scanLoop at hr
    by_cases hi : i < st.map.nbuckets
    · rw [if_pos hi] at hr
      simp only [] at hr
      by_cases hd : (st.map.buckets i).dib = 0
      · rw [if_pos hd] at hr
        exact ih _ _ h ho hq hnd (fun j hj => hnew j (by omega)) hr
      · rw [if_neg hd] at hr
        obtain ⟨m, hm, him, hov, hcnt, htot, hes, hnb, hga, _, hcont⟩ := delbkt_spec hv h hi hd
        have hin : (st.map.buckets i).ent ∈ st.map.cont := mem_cont.2 ⟨i, hi, hd, rfl⟩
        have hcn : (cont st.map.buckets st.map.nbuckets).Nodup := Multiset.Nodup.of_map _ (h.nodup ho)
        have hnd2 : (st.seen ++ [(st.map.buckets i).ent]).Nodup := by
          rw [List.nodup_append]
          refine ⟨hnd, by simp, ?_⟩
          intro a ha b hb hab
          rw [List.mem_singleton.1 hb] at hab
          rw [hab] at ha
          exact hnew i (le_refl _) hi hd ha
        have hnew2 : ∀ j, i < j → j < st.map.nbuckets → (st.map.buckets j).dib ≠ 0 →
            (st.map.buckets j).ent ∉ st.seen ++ [(st.map.buckets i).ent] := by
          intro j hj hjn hjd hmem
          rcases List.mem_append.1 hmem with hm1 | hm1
          · exact hnew j (by omega) hjn hjd hm1
          · have := ent_inj hcn hjn hi hjd hd (List.mem_singleton.1 hm1)
            omega
        -- after a deletion the later entries come from later places
        have hdel : (st.map.buckets 0).dib ≤ 1 → (m.buckets 0).dib ≤ 1 ∧ ∀ j, i ≤ j → j < m.nbuckets →
            (m.buckets j).dib ≠ 0 → ∃ j', i < j' ∧ j' < st.map.nbuckets ∧ (st.map.buckets j').dib ≠ 0 ∧
              (m.buckets j).ent = (st.map.buckets j').ent := by
          intro h0
          have := (delbkt_moves hv h hi hd hm).2 h0 ho
          rw [hnb]
          exact this
        by_cases ha : (st.map.buckets i).ent.alive now = true
        · rw [if_neg (by simp [ha])] at hr
          cases hact : act st.seen (st.map.buckets i).ent with
          | cont =>
            rw [hact] at hr
            simp only [] at hr
            exact ih (i + 1) { st with seen := st.seen ++ [(st.map.buckets i).ent] } h ho hq hnd2 (fun j hj => hnew2 j (by omega)) hr
          | stop =>
            rw [hact] at hr
            simp only [Out.val.injEq] at hr
            rw [← hr]
            exact hnd2
          | delete =>
            rw [hact] at hr
            simp only [hm, ofLoop, Out.bind] at hr
            have h0 : (st.map.buckets 0).dib ≤ 1 := by
              rcases hq with h0 | ⟨_, h0⟩
              · exact h0
              · have := h0 st.seen (st.map.buckets i).ent
                rw [hact] at this; simp [Act.del] at this
            obtain ⟨hm0, hmm⟩ := hdel h0
            refine ih i _ him (hov.trans ho) (Or.inl hm0) hnd2 ?_ hr
            intro j hj hjn hjd
            obtain ⟨j', hj1, hj2, hj3, hj4⟩ := hmm j hj hjn hjd
            rw [show ((⟨m, st.evs ++ [.deleted (st.map.buckets i).ent], st.seen ++ [(st.map.buckets i).ent],
              st.stopped, st.pos⟩ : Scan).map.buckets j).ent = _ from hj4]
            exact hnew2 j' hj1 hj2 hj3
          | deleteStop =>
            rw [hact] at hr
            simp only [hm, ofLoop, Out.bind, Out.val.injEq] at hr
            rw [← hr]
            exact hnd2
        · have ha2 : (st.map.buckets i).ent.alive now = false := by simpa using ha
          rw [if_pos (by simp [ha2])] at hr
          simp only [hm, ofLoop, Out.bind] at hr
          have h0 : (st.map.buckets 0).dib ≤ 1 := by
            rcases hq with h0 | ⟨h0, _⟩
            · exact h0
            · exact absurd (h0 _ hin) ha
          obtain ⟨hm0, hmm⟩ := hdel h0
          refine ih i ⟨m, st.evs ++ [.expired (st.map.buckets i).ent], st.seen,
            st.stopped, st.pos⟩ him (hov.trans ho) (Or.inl hm0) hnd ?_ hr
          intro j hj hjn hjd
          obtain ⟨j', hj1, hj2, hj3, hj4⟩ := hmm j hj hjn hjd
          rw [show ((⟨m, st.evs ++ [.expired (st.map.buckets i).ent], st.seen,
            st.stopped, st.pos⟩ : Scan).map.buckets j).ent = _ from hj4]
          exact hnew j' (by omega) hj2 hj3
    · rw [if_neg hi] at hr
      simp only [Out.val.injEq] at hr
      rw [← hr]
      exact hnd

end Verif.Shard
