import Mathlib.Tactic.Common
import Verif.Low.Spec
import Verif.Wire.Props

/-!
C108: a RESP connection to a cache whose memory may be low, from the bytes to the hash table.
-/

namespace Verif.Low

open Verif.Num Verif.Resp Verif.Cmd Verif.Cache Verif.Shard Verif.Map Verif.Wire Function

/-- Enough memory. -/
def roomy (e : Env) : Env := { e with lowmem := false }

/-- How much room there is. -/
def roomOf (noevict : Bool) (e : Env) : Room := if e.lowmem then (if noevict then .full else .evict) else .plenty

/-- The environment of a command: RESP, times of 64 bits. -/
def Fine (e : Env) : Prop := e.proto = .resp ∧ 0 < e.now ∧ IsI64 e.now

theorem Fine.roomy {e : Env} (h : Fine e) : Wire.Fine (roomy e) := ⟨h.1, h.2.1, h.2.2, rfl⟩

section
variable {env : Spec.Env} {e : Env} {pw : Bytes} {y : Sys} {s s' : Spec.State} {out : List W} {m : Store} {args : List Bytes} {t0 : Int}

/-- A store when memory is low. -/
theorem step_low {a : Spec.StoreArgs} {r : Spec.Reply} {now : Int} (ha : a.lowmem = true) (h : Spec.Step env false now (.store a) s r s') :
    (env.noevict = true → r = ⟨.nomem, []⟩ ∧ s'.dict = s.dict) ∧
    (env.noevict = false → ∃ s1, Spec.Step env false now (.store { a with lowmem := false }) s r s1 ∧
      (s' = s1 ∨ s.dict.get now a.key = none ∧ ∃ v, v ≠ a.key ∧ s'.dict = update s1.dict v none)) := by
  constructor
  · intro hn
    unfold Spec.Step at h
    simp only [ha, hn, Bool.and_self, if_true] at h
    exact ⟨h.1, by rw [h.2]⟩
  · intro hn
    unfold Spec.Step at h ⊢
    simp only [hn, Bool.and_false, Bool.false_eq_true, if_false, false_and, false_or] at h ⊢
    cases hg : s.dict.get now a.key with
    | some it =>
      rw [hg] at h
      exact ⟨s', h, Or.inl rfl⟩
    | none =>
      rw [hg] at h
      simp only [] at h ⊢
      split at h
      · rename_i hc
        exact ⟨s', by rw [if_pos hc]; exact h, Or.inl rfl⟩
      · rename_i hc
        obtain ⟨h1, h2 | ⟨_, v, hv, h2⟩⟩ := h
        · exact ⟨s', by rw [if_neg hc]; exact ⟨h1, Or.inl h2⟩, Or.inl rfl⟩
        · refine ⟨_, by rw [if_neg hc]; exact ⟨h1, Or.inl rfl⟩, Or.inr ⟨by trivial, v, hv, by rw [h2]; rfl⟩⟩

/-- A command that ends in `execSET`. -/
def Sets (env : Spec.Env) (e : Env) (pw : Bytes) (y : Sys) (k : Bytes) (args : List Bytes) : Prop :=
  ∃ name v o, ∀ b, ∀ s out s', Executes env alone false { e with lowmem := b } pw (admin y) args s out s' ↔
    Runs env alone false e.now (execSET { e with lowmem := b } name k v o) s out s'

theorem sets_words {a : Ask} {k : Bytes} (he : Fine e) (hw : Words a args) (ha : stores a = some k) : Sets env e pw y k args := by
  obtain ⟨hp, h0, hnow⟩ := he
  have hpm : ∀ b, ({ e with lowmem := b } : Env).proto ≠ .memcache := fun b => by simp [hp]
  cases hw with
  | @set w k v c l cs ls ws hs hc hl hws =>
    cases ha
    obtain ⟨wc, hc1, hc2⟩ := cond_written e.now hc
    obtain ⟨⟨wl, hl1, hl2⟩, hpos⟩ := life_written e.now hl
    obtain ⟨os, wss, ho, hw1, hw2⟩ : ∃ os wss, (os = condOpts c ++ lifeOpts e.now l ∨ os = lifeOpts e.now l ++ condOpts c) ∧
        List.Forall₂ (Written e.now) os wss ∧ ws = wss.flatten := by
      rcases hws with rfl | rfl
      · exact ⟨_, wc ++ wl, Or.inl rfl, List.rel_append hc1 hl1, by rw [hc2, hl2, List.flatten_append]⟩
      · exact ⟨_, wl ++ wc, Or.inr rfl, List.rel_append hl1 hc1, by rw [hc2, hl2, List.flatten_append]⟩
    subst hw2
    have h1 : ¬ ((collect os).keepttl = true ∧ (collect os).hasex = true) := by
      rcases ho with rfl | rfl <;> cases c <;> cases l <;> simp [collect, condOpts, lifeOpts, deadlineOf, Opt.deadline?]
    have h2 : ¬ ((collect os).xx = true ∧ (collect os).nx = true) := by
      rcases ho with rfl | rfl <;> cases c <;> cases l <;> simp [collect, condOpts, lifeOpts]
    refine ⟨[83, 69, 84], v, collect os, fun b s out s' => ?_⟩
    rw [executes_iff hs (by decide : (_, Fn.cmdSET) ∈ cmds) rfl,
      cmdSET_opts (hw1.imp fun _ _ h => written_reads (hpm b) hnow h0 h) (flags_ok hw1) (deadlines_pos h0 hw1), if_neg h1, if_neg h2]
  | @setex w k v t x hs ht hx =>
    cases ha
    refine ⟨[83, 69, 84, 69, 88], v, ⟨fromNow e.now x 1000000000, false, false, false, false, false, 0, 0, false⟩, fun b s out s' => ?_⟩
    rw [executes_iff hs (by decide : (_, Fn.cmdSETEX) ∈ cmds) rfl]
    unfold cmdSETEX
    simp only [ht.parse]
    rw [if_neg (by omega), show second = 1000000000 from rfl, deadline_eq hnow h0 (by decide) (by unfold IsI64; decide) ht.2.2 (by omega)]
  | @swap w k v g hs hg =>
    cases ha
    have hw1 : List.Forall₂ (Written e.now) [.get] [[g]] := .cons (.get hg) .nil
    refine ⟨[83, 69, 84], v, collect [.get], fun b s out s' => ?_⟩
    have := cmdSET_opts (name := w) (key := k) (val := v) (hw1.imp fun _ _ h => written_reads (hpm b) hnow h0 h) (flags_ok hw1) (deadlines_pos h0 hw1)
    rw [executes_iff hs (by decide : (_, Fn.cmdSET) ∈ cmds) rfl, show [w, k, v, g] = w :: k :: v :: [[g]].flatten from rfl, this,
      if_neg (by simp [collect]), if_neg (by simp [collect])]
  | _ => cases ha

/-- SET when memory is low. -/
theorem sets_low {k : Bytes} (hs : Sets env e pw y k args) (hl : e.lowmem = true) (h : Executes env alone false e pw (admin y) args s out s') :
    (env.noevict = true → out = [.err .outOfMemory] ∧ s'.dict = s.dict) ∧
    (env.noevict = false → ∃ s1, Executes env alone false (roomy e) pw (admin y) args s out s1 ∧
      (s' = s1 ∨ s.dict.get e.now k = none ∧ ∃ v, v ≠ k ∧ s'.dict = update s1.dict v none)) := by
  obtain ⟨name, v, o, hs⟩ := hs
  have he : ({ e with lowmem := true } : Env) = e := by rw [← hl]
  have h1 := hs true s out s'
  rw [he] at h1
  rw [h1] at h
  unfold execSET at h
  obtain ⟨s1, r, s2, rfl, h2, h3⟩ := runs_call h
  obtain ⟨rfl, rfl⟩ := runs_ret h3
  obtain ⟨h4, h5⟩ := step_low hl h2
  refine ⟨fun hn => ?_, fun hn => ?_⟩
  · obtain ⟨rfl, h6⟩ := h4 hn
    exact ⟨by simp [setReply], h6⟩
  · obtain ⟨s3, h6, h7⟩ := h5 hn
    refine ⟨s3, (hs false _ _ _).2 ?_, h7⟩
    exact .call rfl h6 (.ret _ _)

theorem sends_tooFull : Sends [.err .outOfMemory] tooFull := sends_err _ rfl

theorem agrees_forget {d : Spec.Dict} {now : Int} (h : Agrees now d m) (v : Bytes) : Agrees now (update d v none) (update m v none) := by
  have hm : ∀ k, Store.see (update m v none) now k = if k = v then none else m.see now k := by
    intro k
    unfold Store.see
    by_cases hk : k = v
    · subst hk; simp
    · rw [update_of_ne hk, if_neg hk]
  have hd : ∀ k, Store.see (fun k => (update d v none k).map kept) now k = if k = v then none else Store.see (fun k => (d k).map kept) now k := by
    intro k
    unfold Store.see
    by_cases hk : k = v
    · subst hk; simp
    · simp only [update_of_ne hk, if_neg hk]
  refine ⟨fun k => ?_, fun k x hk => ?_⟩
  · rw [hm, hd, h.1 k]
  · rw [hm] at hk
    by_cases hkv : k = v
    · rw [if_pos hkv] at hk; cases hk
    · rw [if_neg hkv] at hk; exact h.2 k x hk

/-- A command that needs no memory to be there. -/
theorem done_other {a : Ask} (he : Fine e) (hw : Words a args) (ha : stores a = none) (hn : args.length ≤ 100000) (hl : ∀ t ∈ args, t.length ≤ longest)
    (h0' : Agrees e.now s.dict m) : Done env e pw y e.now m a args s out s' := by
  obtain ⟨hp, h0, hnow⟩ := he
  have hll := longest_lt
  have hle := le_refl e.now
  have num : ∀ {t : Bytes} {x : Int}, IntArg t x → IsNumber t x := fun hi => Or.inr hi
  cases hw with
  | ping hw => exact done_ping hp hw hle h0'
  | echo hw => exact done_echo hp hw (by have := hl _ (List.mem_cons_of_mem _ (List.mem_singleton.2 rfl)); omega) hle h0'
  | get hw => exact done_get hp hw hle h0'
  | mget hw hks => exact done_mget hp hw hks (by simp at hn; omega) hle h0'
  | exist hw hks => exact done_exist hp hw hks (by simp at hn; omega) hle h0'
  | touch hw hks => exact done_touch hp hw hks (by simp at hn; omega) hle h0'
  | ttl hw => exact done_ttl hp h0 hnow hw hle h0'
  | set hw hc hl' hws => cases ha
  | setex hw ht hx => cases ha
  | swap hw hg => cases ha
  | del hw hks => exact done_del hp hw hks (by simp at hn; omega) h0'
  | expire hw ht hx => exact done_expire hp h0 hnow hw ht hx hle h0'
  | join hw => exact done_join hp h0 hw (hl _ (by simp)) hle h0'
  | @incrby _ k _ _ hw ht =>
    have := done_add (k := k) (env := env) (pw := pw) (y := y) (s' := s') (out := out) hp h0 (decr := false) ⟨_, Or.inl ⟨rfl, hw⟩⟩ (num ht)
      (by simpa [result] using ht.2.2) hle h0'
    simpa [result] using this
  | @decrby _ k _ _ hw ht hd =>
    have := done_add (k := k) (env := env) (pw := pw) (y := y) (s' := s') (out := out) hp h0 (decr := true) ⟨_, Or.inl ⟨rfl, hw⟩⟩ (num ht)
      (by simpa [result] using hd) hle h0'
    simpa [result] using this
  | incr hw =>
    exact done_add (env := env) (pw := pw) (y := y) (s' := s') (out := out) hp h0 (decr := false) (δ := 1) ⟨_, Or.inr ⟨rfl, hw, rfl⟩⟩
      (isNumber_iff.2 (by decide)) (by unfold result IsI64; simp) hle h0'
  | decr hw =>
    exact done_add (env := env) (pw := pw) (y := y) (s' := s') (out := out) hp h0 (decr := true) (δ := 1) ⟨_, Or.inr ⟨rfl, hw, rfl⟩⟩
      (isNumber_iff.2 (by decide)) (by unfold result IsI64; simp) hle h0'

/-- One command. -/
theorem low_words {a : Ask} (he : Fine e) (hw : Words a args) (hn : args.length ≤ 100000) (hl : ∀ t ∈ args, t.length ≤ longest)
    (h : Agrees e.now s.dict m) (hx : Executes env alone false e pw (admin y) args s out s') :
    ∃ r m', Serves e.now (roomOf env.noevict e) m a r m' ∧ Sends out r ∧ Agrees e.now s'.dict m' := by
  by_cases hlow : e.lowmem = true
  · cases hst : stores a with
    | none =>
      obtain ⟨r, m', h1, h2, h3, _⟩ := done_other he hw hst hn hl h hx
      exact ⟨r, m', .as h1 (fun _ => hst), h2, h3⟩
    | some k =>
      obtain ⟨h1, h2⟩ := sets_low (sets_words he hw hst) hlow hx
      cases hne : env.noevict with
      | true =>
        obtain ⟨rfl, h3⟩ := h1 hne
        have hr : roomOf true e = .full := by unfold roomOf; rw [if_pos hlow]; rfl
        exact ⟨_, _, .refuse hr hst, sends_tooFull, by rw [h3]; exact h⟩
      | false =>
        have hr : roomOf false e = .evict := by unfold roomOf; rw [if_pos hlow]; rfl
        obtain ⟨s1, h3, h4⟩ := h2 hne
        obtain ⟨r, m', h5, h6, h7, _⟩ := done_words he.roomy hw hn hl (le_refl _) (Or.inr rfl) h h3
        rcases h4 with rfl | ⟨h4, v, h8, h9⟩
        · exact ⟨r, m', .as h5 (by rw [hr]; intro hc; cases hc), h6, h7⟩
        · refine ⟨r, _, .evict hr hst ?_ h5 h8, h6, ?_⟩
          · rw [h.get, h4]; rfl
          · rw [h9]; exact agrees_forget h7 v
  · have hf : e.lowmem = false := by simpa using hlow
    obtain ⟨r, m', h1, h2, h3, _⟩ := done_words ⟨he.1, he.2.1, he.2.2, hf⟩ hw hn hl (le_refl _) (Or.inr rfl) h hx
    refine ⟨r, m', .as h1 ?_, h2, h3⟩
    unfold roomOf
    rw [if_neg hlow]
    intro hc
    cases hc

end

/-- The times of the commands, and how much room there is. -/
def timed (noevict : Bool) (clock : Nat → Env) : Nat → List Ask → List (Int × Room × Ask)
  | _, [] => []
  | i, a :: as => ((clock i).now, roomOf noevict (clock i), a) :: timed noevict clock (i + 1) as

theorem run_all {c : Ctx} {n : Nat} {pw : Bytes} {y : Sys} {clock : Nat → Env} (hv : c.Valid) (hn : 0 < n)
    (hclock : ∀ i, Fine (clock i)) (hmono : ∀ i, (clock i).now ≤ (clock (i + 1)).now)
    {as : List Ask} {cs : List (List Bytes)} (hw : List.Forall₂ Words as cs) (hlen : ∀ x ∈ cs, x.length ≤ 100000 ∧ ∀ t ∈ x, t.length ≤ longest)
    (shs : Shards) (h : AllInv c n shs) (sent : Bytes) (i : Nat) :
    ((∃ shs', (runAll (execResp (Wire.exec c n pw y clock)) cs ⟨.val shs, ⟨true⟩, sent, i⟩).1.cache = .val shs' ∧ AllInv c n shs' ∧
      (NoWrap n shs' → NoWrap n shs ∧ ∀ now0 s m, now0 ≤ (clock i).now → R c n now0 shs s → Agrees (clock i).now s.dict m →
        (runAll (execResp (Wire.exec c n pw y clock)) cs ⟨.val shs, ⟨true⟩, sent, i⟩).2 = false ∧
        ∃ rs m' bytes, Conversation (timed c.noevict clock i as) m rs m' ∧ Reads bytes rs ∧
          (runAll (execResp (Wire.exec c n pw y clock)) cs ⟨.val shs, ⟨true⟩, sent, i⟩).1.sent = sent ++ bytes)) ∨
    (runAll (execResp (Wire.exec c n pw y clock)) cs ⟨.val shs, ⟨true⟩, sent, i⟩).1.cache = .abort true) := by
  induction hw generalizing shs sent i with
  | nil =>
    left
    refine ⟨shs, rfl, h, fun hnw => ⟨hnw, fun now0 s m _ _ _ => ⟨rfl, [], m, [], .nil m, reads_nil, by simp [runAll]⟩⟩⟩
  | @cons a args as cs hw _ ih =>
    obtain ⟨p, hp1, hp2, hp3⟩ := words_program hw (clock i) pw y
    obtain ⟨hr, h0, hi⟩ := hclock i
    have hstep : ∀ st, execResp (Wire.exec c n pw y clock) args st = Wire.exec c n pw y clock args st := fun st => by
      unfold execResp; rw [if_neg hp3]
    have hex : ∀ o, (evcommand (clock i) pw (admin y) args ⟨true⟩).exec c n (fun _ _ => ⟨true, true, true⟩) (clock i).now 0 shs = o →
        Wire.exec c n pw y clock args ⟨.val shs, ⟨true⟩, sent, i⟩ =
          match o with
          | .val ((out, auth), shs') => (⟨.val shs', auth, renderAll out sent, i + 1⟩, decide (W.close ∈ out))
          | bad => (⟨bad.bind fun r => .val r.2, ⟨true⟩, sent, i⟩, true) := by
      intro o ho
      unfold Wire.exec
      simp only [Out.bind, ho]
      cases o <;> rfl
    rcases prog_refines hv hn (fun _ _ => ⟨true, true, true⟩) false (clock i).now h0 hi (fun _ _ _ => rfl) (fun _ _ => rfl) (fun _ _ => rfl) _ hp2 0 shs h with
      ⟨⟨out, auth⟩, shs1, a1, a2, a3⟩ | a1
    · have he := hex _ a1
      simp only [] at he
      obtain ⟨out', ho⟩ := exec_map p (hp1 ▸ a1)
      simp only [Prod.mk.injEq] at ho
      obtain ⟨rfl, rfl⟩ := ho
      have hdone : NoWrap n shs1 → NoWrap n shs ∧ ∀ now0 s m, now0 ≤ (clock i).now → R c n now0 shs s → Agrees (clock i).now s.dict m →
          ∃ s1 r m', R c n (clock i).now shs1 s1 ∧ Serves (clock i).now (roomOf c.noevict (clock i)) m a r m' ∧ Sends out r ∧ Agrees (clock i).now s1.dict m' := by
        intro hnw
        obtain ⟨b1, b2⟩ := a3 hnw
        refine ⟨b1, fun now0 s m hle hR hag => ?_⟩
        obtain ⟨s1, b3, b4⟩ := b2 now0 s hle hR
        obtain ⟨r, m', b5, b6, b7⟩ := low_words (hclock i) hw (hlen args (by simp)).1 (hlen args (by simp)).2 hag ⟨_, b4⟩
        exact ⟨s1, r, m', b3, b5, b6, b7⟩
      rw [runAll, hstep, he]
      by_cases hcl : W.close ∈ out
      · left
        rw [if_pos (by simpa using hcl)]
        refine ⟨shs1, rfl, a2, fun hnw => ?_⟩
        obtain ⟨b1, b2⟩ := hdone hnw
        refine ⟨b1, fun now0 s m hle hR hag => ?_⟩
        obtain ⟨s1, r, m', _, _, b6, _⟩ := b2 now0 s m hle hR hag
        exact absurd hcl b6.2
      · rw [if_neg (by simpa using hcl)]
        rcases ih (fun x hx => hlen x (by simp [hx])) shs1 a2 (renderAll out sent) (i + 1) with ⟨shs', c1, c2, c3⟩ | c1
        · left
          refine ⟨shs', c1, c2, fun hnw => ?_⟩
          obtain ⟨c4, c5⟩ := c3 hnw
          obtain ⟨b1, b2⟩ := hdone c4
          refine ⟨b1, fun now0 s m hle hR hag => ?_⟩
          obtain ⟨s1, r, m', b3, b5, b6, b7⟩ := b2 now0 s m hle hR hag
          obtain ⟨c6, rs, m2, bytes, c7, c8, c9⟩ := c5 _ s1 m' (hmono i) b3 (b7.later (hmono i))
          obtain ⟨b, d1, d2⟩ := reads_cons b6.1 c8
          refine ⟨c6, r :: rs, m2, b ++ bytes, .cons b5 c7, d2, ?_⟩
          rw [c9, d1, List.append_assoc]
        · exact Or.inr c1
    · right
      rw [runAll, hstep, hex _ a1]
      rfl

/-- **C108.**  As C98, with memory that is enough or low at each command as it likes: the replies are those of a server that, when memory is low, forgets at
most one other key with each new key it stores, or else (`--evict no`) refuses to store. -/
theorem low_served {c : Ctx} (hv : c.Valid) {n : Nat} (hn : 0 < n) {shs : Shards} (h : AllInv c n shs) {now0 : Int} {s : Spec.State}
    (hR : R c n now0 shs s) (hs : ∀ k it, s.dict k = some it → it.value.length ≤ longest ∧ it.expires < 2 ^ 63)
    {pw : Bytes} {y : Sys} {clock : Nat → Env} (hclock : ∀ i, Fine (clock i)) (hmono : ∀ i, (clock i).now ≤ (clock (i + 1)).now)
    (h0 : now0 ≤ (clock 0).now) {others : Proto → Bytes → PR (List Bytes × Nat)} {onErr : Srv → Srv}
    {as : List Ask} {cs : List (List Bytes)} {ws : List Bytes} (hw : List.Forall₂ Words as cs) (he : List.Forall₂ Enc cs ws)
    {chunks : List Bytes} (hc : chunks.flatten <+: ws.flatten) :
    ∃ conn k tail, serve c n pw y clock others onErr shs chunks = .got conn ∧ Received ws chunks.flatten k tail ∧
      (Wrapped n conn.st.cache ∨
        conn.closed = false ∧ conn.packet = tail ∧ (∃ shs', conn.st.cache = .val shs') ∧
        ∃ rs m', rs.length = k ∧ Conversation (timed c.noevict clock 0 (as.take k)) (ofDict s.dict) rs m' ∧ Reads conn.st.sent rs) := by
  obtain ⟨conn, k, tail, h1, h2, h3, h4⟩ := resp_chunking (Wire.exec c n pw y clock) onErr he chunks hc ⟨.val shs, ⟨true⟩, [], 0⟩ others
  refine ⟨conn, k, tail, h1, h2, ?_⟩
  have hlen : ∀ x ∈ cs, x.length ≤ 100000 ∧ ∀ t ∈ x, t.length ≤ longest := by
    intro x hx
    have : ∀ {cs : List (List Bytes)} {ws : List Bytes}, List.Forall₂ Enc cs ws → x ∈ cs → ∃ w, Enc x w := by
      intro cs ws hf
      induction hf with
      | nil => intro hx; simp at hx
      | cons h1 _ ih =>
        intro hx
        rcases List.mem_cons.1 hx with rfl | hx
        · exact ⟨_, h1⟩
        · exact ih hx
    obtain ⟨w, hw⟩ := this he hx
    exact enc_length hw
  have hag : Agrees (clock 0).now s.dict (ofDict s.dict) := by
    refine ⟨fun _ => rfl, fun k x hx => ?_⟩
    unfold Store.see ofDict at hx
    rw [Option.filter_eq_some_iff, Option.map_eq_some_iff] at hx
    obtain ⟨⟨it, h5, rfl⟩, _⟩ := hx
    refine ⟨(hs k it h5).1, fun d hd => ?_⟩
    unfold kept at hd
    simp only [] at hd
    split at hd
    · cases hd
    · cases hd
      exact (hs k it h5).2
  have key := run_all (pw := pw) (y := y) hv hn hclock hmono (List.forall₂_take k hw) (fun x hx => hlen x (List.mem_of_mem_take hx)) shs h [] 0
  rw [Prod.ext_iff] at h3
  simp only [] at h3
  rw [← h3.1, ← h3.2] at key
  have hk : (as.take k).length = k := by
    rw [List.length_take, hw.length_eq, he.length_eq]
    have := h2.2.1
    omega
  rcases key with ⟨shs', k1, _, k3⟩ | k1
  · rw [k1]
    by_cases hnw : NoWrap n shs'
    · right
      obtain ⟨k5, rs, m', bytes, k6, k7, k8⟩ := (k3 hnw).2 now0 s _ h0 hR hag
      rw [List.nil_append] at k8
      refine ⟨k5, h4 k5, ⟨shs', rfl⟩, rs, m', ?_, k6, k8 ▸ k7⟩
      have hlenc : ∀ {i : Nat} {as : List Ask} {m m' : Store} {rs : List Reply}, Conversation (timed c.noevict clock i as) m rs m' → rs.length = as.length := by
        intro i as
        induction as generalizing i with
        | nil => intro m m' rs hh; cases hh; rfl
        | cons a as ih => intro m m' rs hh; cases hh with | cons _ h' => simp [ih h']
      rw [hlenc k6, hk]
    · exact Or.inl hnw
  · left
    rw [k1]
    trivial

end Verif.Low
