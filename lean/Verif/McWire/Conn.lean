import Mathlib.Tactic.Common
import Verif.McWire.Props

/-!
C100, continued: the whole connection.
-/

namespace Verif.McWire

open Verif.Num Verif.Resp Verif.Cmd Verif.Cache Verif.Shard Verif.Map Function

/-! ### One request -/

/-- The request is executed as the user has it in mind. -/
def Handled (y : Sys) (a : Ask) (q : Mc.Req) : Prop :=
  ∀ (e : Env) (pw : Bytes), Fine e → (handle e pw y ⟨true⟩ q).ok ∧ (∃ p : Prog (Bytes × Bool), handle e pw y ⟨true⟩ q = p.map fun x => (x.1, ⟨true⟩, x.2)) ∧
    ∀ (env : Spec.Env) (t0 : Int) (s s' : Spec.State) (m : Store) (bytes : Bytes) (st : ConnSt) (close : Bool), env.usecas = true → t0 ≤ e.now → Agrees env.grp t0 s m →
      Runs env alone false e.now (handle e pw y ⟨true⟩ q) s (bytes, st, close) s' → close = false ∧ Does env.grp y.version t0 e m a bytes s'

theorem handled_cmd {y : Sys} {a : Ask} {name : Bytes} {as : List Bytes} {fn : Fn} (hm : (name, fn) ∈ cmds)
    (hcall : ∀ (e : Env) (pw : Bytes), ∃ p : Prog (List W), call e pw (admin y) fn (name :: as) ⟨true⟩ = p.map (·, ⟨true⟩) ∧
      (call e pw noOther fn (name :: as) ⟨true⟩ = p.map (·, ⟨true⟩) ∨ ∃ o, p = .ret o))
    (hdone : ∀ (env : Spec.Env) (t0 : Int) (e : Env) (pw : Bytes) (m : Store) (s s' : Spec.State) (out : List W), env.usecas = true → Fine e → t0 ≤ e.now → Agrees env.grp t0 s m →
      Done env t0 e pw y m a (name :: as) s out s') : Handled y a (.cmd (name :: as) false) := by
  intro e pw he
  obtain ⟨p, h1, h2⟩ := hcall e pw
  have hev : evcommand e pw (admin y) (name :: as) ⟨true⟩ = p.map (·, ⟨true⟩) := by rw [evcommand_known spells_self hm, h1]
  refine ⟨?_, ⟨p.map fun o => (Mc.written o, decide (W.close ∈ o)), ?_⟩, ?_⟩
  · refine Prog.ok_map _ _ ?_
    rcases h2 with h2 | ⟨o, rfl⟩
    · rw [hev, ← h2, ← evcommand_known spells_self hm]
      exact evcommand_ok e pw noOther (fun _ _ _ => trivial) _ _
    · rw [hev]
      trivial
  · unfold handle
    simp only []
    rw [hev]
    clear h1 h2 hev
    induction p with
    | ret o => rfl
    | call c k ih =>
      simp only [Prog.map]
      congr 1
      funext r
      exact ih r
  · intro env t0 s s' m bytes st close hu hle hag hr
    obtain ⟨⟨out, st'⟩, h3, h4⟩ := runs_map hr
    simp only [Prod.mk.injEq] at h4
    obtain ⟨rfl, rfl, rfl⟩ := h4
    obtain ⟨h5, h6⟩ := hdone env t0 e pw m s s' out hu he hle hag ⟨_, h3⟩
    exact ⟨by simpa using h5, h6⟩

theorem handled_other {y : Sys} : Handled y .other (.bad .error) := by
  intro e pw he
  refine ⟨trivial, ⟨.ret (_, _), rfl⟩, ?_⟩
  intro env t0 s s' m bytes st close hu hle hag hr
  obtain ⟨h1, rfl⟩ := runs_ret hr
  simp only [Prod.mk.injEq] at h1
  obtain ⟨rfl, rfl, rfl⟩ := h1
  refine ⟨rfl, m, hag, Or.inl ⟨_, .other, ?_⟩⟩
  have : Mc.writeErr Mc.Err.error.text false = error ++ [13, 10] := by decide
  rw [this]
  exact spoken_line (plain_simple (by simp))

/-- What the parser makes of a command. -/
def Form : Ask → Mc.Req → Prop
  | .get tokens ks, q => ks ≠ [] ∧ (∀ k ∈ ks, Mc.Key k) ∧ q = .cmd (mcGetName tokens :: ks) false
  | .store _ k v _ _, q => v.length ≤ Wire.longest ∧ ∃ opts, q = .cmd (setName :: k :: v :: opts) false
  | .join front k v, q => q = .cmd [appendName front, k, v] false
  | .delete k, q => q = .cmd [delName, k] false
  | .count down k _, q => ∃ t, q = .cmd [incrName down true true, k, t] false
  | .touch k _, q => ∃ t, q = .cmd [expireName, k, t] false
  | .version, q => q = .cmd [[118, 101, 114, 115, 105, 111, 110]] false
  | .other, q => q = .bad .error

/-- The parser reads the request, and it is handled. -/
theorem writes_handled {y : Sys} (hver : ∀ b ∈ y.version, 32 ≤ b) {a : Ask} {w : Bytes} (h : Writes a w) :
    ∃ q, Mc.Request q w ∧ w ≠ Mc.joined [[100, 101, 108, 101, 116, 101], Mc.noreplyWord] ++ [13, 10] ∧ Handled y a q ∧ Form a q := by
  have hfirst : ∀ (n : Bytes) (ws : List Bytes) (t : Bytes), n ≠ [] → n.head? ≠ some 100 →
      Mc.joined (n :: ws) ++ t ≠ Mc.joined [[100, 101, 108, 101, 116, 101], Mc.noreplyWord] ++ [13, 10] := by
    intro n ws t hn hh hc
    have := congrArg List.head? hc
    cases n with
    | nil => exact hn rfl
    | cons b n =>
      apply hh
      cases ws with
      | nil => simpa [Mc.joined] using this
      | cons w ws => simpa [Mc.joined] using this
  cases h with
  | @get tokens ks hks hk =>
    cases tokens with
    | false =>
      refine ⟨_, Or.inr (Or.inl ⟨_, _, _, .get hks hk, rfl, rfl⟩), hfirst _ _ _ (by simp) (by simp), ?_, hks, hk, rfl⟩
      exact handled_cmd (by decide : (mcGetName false, Fn.cmdMGET) ∈ cmds) (fun e pw => ⟨_, rfl, Or.inl rfl⟩) fun env t0 e pw m s s' out hu he hle hag => done_get he hks hk hle hag
    | true =>
      refine ⟨_, Or.inr (Or.inl ⟨_, _, _, .gets hks hk, rfl, rfl⟩), hfirst _ _ _ (by simp) (by simp), ?_, hks, hk, rfl⟩
      exact handled_cmd (by decide : (mcGetName true, Fn.cmdMGET) ∈ cmds) (fun e pw => ⟨_, rfl, Or.inl rfl⟩) fun env t0 e pw m s s' out hu he hle hag => done_get he hks hk hle hag
  | @store how r f c exp hok hnr hverb hc =>
    refine ⟨_, Or.inl ⟨r, f, exp, c, hok, rfl, rfl⟩, ?_, ?_, hok.2.2.2.2.2.2.1, ?_⟩
    · unfold Mc.Store.wire Mc.Store.words
      rw [List.append_assoc, List.append_assoc]
      refine hfirst _ _ _ ?_ ?_ <;> rw [hverb] <;> cases how <;> first | decide | simp [How.verb, Mc.Verb.name]
    · rw [hnr]
      obtain ⟨as, has⟩ : ∃ as, r.command = setName :: as := by
        unfold Mc.Store.command
        rw [hverb]
        cases how <;> exact ⟨_, rfl⟩
      have hd := fun env t0 e pw m s s' out hu he hle hag => done_store (env := env) (t0 := t0) (e := e) (pw := pw) (y := y) (m := m) (s := s) (s' := s') (out := out) hu he hok hverb hc hle hag
      rw [has] at hd ⊢
      exact handled_cmd (by decide : (setName, Fn.cmdSET) ∈ cmds) (fun e pw => ⟨_, rfl, Or.inl rfl⟩) hd
    · rw [hnr]
      unfold Mc.Store.command
      rw [hverb]
      cases how <;> exact ⟨_, rfl⟩
  | @join front r f c exp hok hnr hverb =>
    refine ⟨_, Or.inl ⟨r, f, exp, c, hok, rfl, rfl⟩, ?_, and_comm.1 ?_⟩
    · unfold Mc.Store.wire Mc.Store.words
      rw [List.append_assoc, List.append_assoc]
      refine hfirst _ _ _ ?_ ?_ <;> rw [hverb] <;> cases front <;> decide
    · have has : r.command = [appendName front, r.key, r.data] := by
        unfold Mc.Store.command
        rw [hverb]
        cases front <;> rfl
      rw [hnr, has]
      refine ⟨rfl, ?_⟩
      cases front with
      | false => exact handled_cmd (by decide : (appendName false, Fn.cmdAPPEND) ∈ cmds) (fun e pw => ⟨_, rfl, Or.inl rfl⟩) fun env t0 e pw m s s' out hu he hle hag => done_join hu he hle hag
      | true => exact handled_cmd (by decide : (appendName true, Fn.cmdPREPEND) ∈ cmds) (fun e pw => ⟨_, rfl, Or.inl rfl⟩) fun env t0 e pw m s s' out hu he hle hag => done_join hu he hle hag
  | @delete k hk hne =>
    refine ⟨_, Or.inr (Or.inl ⟨_, _, _, .delete hk, rfl, rfl⟩), ?_, ?_, rfl⟩
    · intro hc
      apply hne
      have h1 : Mc.joined [[100, 101, 108, 101, 116, 101], k] ++ [13, 10] = [100, 101, 108, 101, 116, 101, 32] ++ (k ++ [13, 10]) := by simp [Mc.joined]
      have h2 : Mc.joined [[100, 101, 108, 101, 116, 101], Mc.noreplyWord] ++ [13, 10] = [100, 101, 108, 101, 116, 101, 32] ++ (Mc.noreplyWord ++ [13, 10]) := by
        simp [Mc.joined]
      rw [h1, h2] at hc
      exact List.append_cancel_right (List.append_cancel_left hc)
    · exact handled_cmd (by decide : (delName, Fn.cmdDEL) ∈ cmds) (fun e pw => ⟨_, rfl, Or.inl rfl⟩) fun env t0 e pw m s s' out hu he hle hag => done_delete he hle hag
  | @count down k t d hk ht hd =>
    cases down with
    | false =>
      refine ⟨_, Or.inr (Or.inl ⟨_, _, _, .incr hk ht, rfl, rfl⟩), hfirst _ _ _ (by simp) (by simp), ?_, t, rfl⟩
      exact handled_cmd (by decide : (incrName false true true, Fn.cmdINCRBY) ∈ cmds) (fun e pw => ⟨_, rfl, Or.inl rfl⟩) fun env t0 e pw m s s' out hu he hle hag => done_count hu he ht hd hle hag
    | true =>
      refine ⟨_, Or.inr (Or.inl ⟨_, _, _, .decr hk ht, rfl, rfl⟩), ?_, ?_, t, rfl⟩
      · intro hc
        have := congrArg (fun l => l[2]?) hc
        simp [Mc.joined] at this
      · exact handled_cmd (by decide : (incrName true true true, Fn.cmdDECRBY) ∈ cmds) (fun e pw => ⟨_, rfl, Or.inl rfl⟩) fun env t0 e pw m s s' out hu he hle hag => done_count hu he ht hd hle hag
  | @touch k t secs hk ht h0 h30 =>
    refine ⟨_, Or.inr (Or.inl ⟨_, _, _, .touch hk ht, rfl, rfl⟩), hfirst _ _ _ (by simp) (by simp), ?_, t, rfl⟩
    exact handled_cmd (by decide : (expireName, Fn.cmdEXPIRE) ∈ cmds) (fun e pw => ⟨_, rfl, Or.inl rfl⟩) fun env t0 e pw m s s' out hu he hle hag => done_touch hu he ht h0 h30 hle hag
  | version =>
    refine ⟨_, Or.inr (Or.inl ⟨_, _, _, .version, rfl, rfl⟩), hfirst _ _ _ (by simp) (by simp), ?_, rfl⟩
    exact handled_cmd (by decide : (([118, 101, 114, 115, 105, 111, 110] : Bytes), Fn.cmdVERSION) ∈ cmds) (fun e pw => ⟨cmdVERSION y e, rfl, Or.inr ⟨_, rfl⟩⟩)
      fun env t0 e pw m s s' out hu he hle hag => done_version he hver hle hag
  | @other w ws hw hws =>
    refine ⟨_, Or.inr (Or.inr ⟨w, ws, hw, hws, rfl, rfl⟩), ?_, handled_other, rfl⟩
    intro hc
    apply hw
    -- the first words are the same
    have hword : Mc.Word w := hws w (by simp)
    have hsp : ∀ b ∈ w, b ≠ 32 := fun b hb => (hword.2 b hb).1
    have key : ∀ (l : Bytes) (x y : Bytes), (∀ b ∈ l, b ≠ 32 ∧ b ≠ 13) → (∀ b ∈ x, b ≠ 32 ∧ b ≠ 13) → ∀ u v : Bytes, (u.head? = some 32 ∨ u.head? = some 13) →
        (v.head? = some 32 ∨ v.head? = some 13) → l ++ u = x ++ v → l = x := by
      intro l
      induction l with
      | nil =>
        intro x y _ hx u v hu hv hc
        cases x with
        | nil => rfl
        | cons b x =>
          exfalso
          rw [List.nil_append] at hc
          subst hc
          have := hx b (by simp)
          simp at hu
          rcases hu with rfl | rfl
          · exact this.1 rfl
          · exact this.2 rfl
      | cons b l ih =>
        intro x y hl hx u v hu hv hc
        cases x with
        | nil =>
          exfalso
          rw [List.nil_append] at hc
          subst hc
          have := hl b (by simp)
          simp at hv
          rcases hv with rfl | rfl
          · exact this.1 rfl
          · exact this.2 rfl
        | cons b' x =>
          simp only [List.cons_append, List.cons.injEq] at hc
          obtain ⟨rfl, hc⟩ := hc
          rw [ih x y (fun c hc => hl c (by simp [hc])) (fun c hc => hx c (by simp [hc])) u v hu hv hc]
    have hj : ∃ u, Mc.joined (w :: ws) ++ [13, 10] = w ++ u ∧ (u.head? = some 32 ∨ u.head? = some 13) := by
      cases ws with
      | nil => exact ⟨[13, 10], rfl, Or.inr rfl⟩
      | cons x xs => exact ⟨32 :: (Mc.joined (x :: xs) ++ [13, 10]), by simp [Mc.joined], Or.inl rfl⟩
    obtain ⟨u, hu1, hu2⟩ := hj
    have hd : Mc.joined [[100, 101, 108, 101, 116, 101], Mc.noreplyWord] ++ [13, 10] = [100, 101, 108, 101, 116, 101] ++ 32 :: (Mc.noreplyWord ++ [13, 10]) := by
      simp [Mc.joined]
    rw [hu1, hd] at hc
    rw [key w [100, 101, 108, 101, 116, 101] [] (fun b hb => ⟨(hword.2 b hb).1, (hword.2 b hb).2.2⟩) (by decide) _ _ hu2 (Or.inl rfl) hc]
    decide

/-! ### The connection -/

/-- The times of the first commands. -/
def timed (clock : Nat → Env) : Nat → List Ask → List (Int × Int × Ask)
  | _, [] => []
  | i, a :: as => ((clock i).now, (clock i).unix, a) :: timed clock (i + 1) as

theorem run_all {c : Ctx} {n : Nat} {pw : Bytes} {y : Sys} {clock : Nat → Env} (hv : c.Valid) (hu : c.usecas = true) (hn : 0 < n)
    (hclock : ∀ i, Fine (clock i)) (hmono : ∀ i, (clock i).now ≤ (clock (i + 1)).now)
    {as : List Ask} {qs : List Mc.Req} (hw : List.Forall₂ (Handled y) as qs) (shs : Shards) (h : AllInv c n shs) (sent : Bytes) (i : Nat) :
    ((∃ shs', (runAll (exec c n pw y clock) qs ⟨.val shs, ⟨true⟩, sent, i⟩).1.cache = .val shs' ∧ AllInv c n shs' ∧
      (NoWrap n shs' → NoWrap n shs ∧ ∀ now0 s m, now0 ≤ (clock i).now → R c n now0 shs s → Agrees (shardIdx c n) (clock i).now s m →
        (runAll (exec c n pw y clock) qs ⟨.val shs, ⟨true⟩, sent, i⟩).2 = false ∧
        ∃ rs m' bytes, Talk y.version (timed clock i as) m rs bytes m' ∧
          (runAll (exec c n pw y clock) qs ⟨.val shs, ⟨true⟩, sent, i⟩).1.sent = sent ++ bytes)) ∨
    (runAll (exec c n pw y clock) qs ⟨.val shs, ⟨true⟩, sent, i⟩).1.cache = .abort true) := by
  induction hw generalizing shs sent i with
  | nil =>
    left
    refine ⟨shs, rfl, h, fun hnw => ⟨hnw, fun now0 s m _ _ _ => ⟨rfl, [], m, [], .nil m, by simp [runAll]⟩⟩⟩
  | @cons a q as qs hw _ ih =>
    obtain ⟨hr, h0, hi, _⟩ := hclock i
    obtain ⟨hp2, ⟨p, hp1⟩, hp3⟩ := hw (clock i) pw (hclock i)
    have hex : ∀ o, (handle (clock i) pw y ⟨true⟩ q).exec c n (fun _ _ => ⟨true, true, true⟩) (clock i).now 0 shs = o →
        exec c n pw y clock q ⟨.val shs, ⟨true⟩, sent, i⟩ =
          match o with
          | .val ((bytes, auth, close), shs') => (⟨.val shs', auth, sent ++ bytes, i + 1⟩, close)
          | bad => (⟨bad.bind fun r => .val r.2, ⟨true⟩, sent, i⟩, true) := by
      intro o ho
      unfold exec
      simp only [Out.bind, ho]
      cases o <;> rfl
    rcases prog_refines hv hn (fun _ _ => ⟨true, true, true⟩) false (clock i).now h0 hi (fun _ _ _ => rfl) (fun _ _ => rfl) (fun _ _ => rfl) _ hp2 0 shs h with
      ⟨⟨bytes, auth, close⟩, shs1, a1, a2, a3⟩ | a1
    · have he := hex _ a1
      simp only [] at he
      obtain ⟨x, ho⟩ := Wire.exec_map p (hp1 ▸ a1)
      simp only [Prod.mk.injEq] at ho
      obtain ⟨_, rfl, _⟩ := ho
      have hdone : NoWrap n shs1 → NoWrap n shs ∧ ∀ now0 s m, now0 ≤ (clock i).now → R c n now0 shs s → Agrees (shardIdx c n) (clock i).now s m →
          ∃ s1, R c n (clock i).now shs1 s1 ∧ close = false ∧ Does (shardIdx c n) y.version (clock i).now (clock i) m a bytes s1 := by
        intro hnw
        obtain ⟨b1, b2⟩ := a3 hnw
        refine ⟨b1, fun now0 s m hle hR hag => ?_⟩
        obtain ⟨s1, b3, b4⟩ := b2 now0 s hle hR
        exact ⟨s1, b3, hp3 ⟨c.usecas, c.noevict, shardIdx c n⟩ (clock i).now s s1 m bytes _ close hu (le_refl _) hag b4⟩
      rw [runAll, he]
      by_cases hcl : close = true
      · left
        subst hcl
        rw [if_pos rfl]
        refine ⟨shs1, rfl, a2, fun hnw => ?_⟩
        obtain ⟨b1, b2⟩ := hdone hnw
        refine ⟨b1, fun now0 s m hle hR hag => ?_⟩
        obtain ⟨s1, _, b6, _⟩ := b2 now0 s m hle hR hag
        cases b6
      · rw [if_neg hcl]
        rcases ih shs1 a2 (sent ++ bytes) (i + 1) with ⟨shs', c1, c2, c3⟩ | c1
        · left
          refine ⟨shs', c1, c2, fun hnw => ?_⟩
          obtain ⟨c4, c5⟩ := c3 hnw
          obtain ⟨b1, b2⟩ := hdone c4
          refine ⟨b1, fun now0 s m hle hR hag => ?_⟩
          obtain ⟨s1, b3, _, m', b7, b8⟩ := b2 now0 s m hle hR hag
          obtain ⟨c6, rs, m2, bytes2, c7, c9⟩ := c5 _ s1 m' (hmono i) b3 (b7.later (hmono i))
          rcases b8 with ⟨r, b8, b9⟩ | b8
          · exact ⟨c6, some r :: rs, m2, bytes ++ bytes2, .good b8 b9 c7, by rw [c9, List.append_assoc]⟩
          · exact ⟨c6, none :: rs, m2, bytes ++ bytes2, .off b8 c7, by rw [c9, List.append_assoc]⟩
        · exact Or.inr c1
    · right
      rw [runAll, hex _ a1]
      rfl

/-- What the user thinks is there. -/
def ofState (grp : Bytes → Nat) (s : Spec.State) : Store := ⟨fun k => (s.dict k).map held, fun k => s.tok (grp k)⟩

/-- The first chunk of a new connection tells that it is a memcache connection: then everything is as if that had been known. -/
theorem feed_new {σ : Type} {parse : Proto → Bytes → PR (Mc.Req × Nat)} {exec : Exec Mc.Req σ} {onErr : σ → σ} {st : σ} {first : Bytes} {chunks : List Bytes}
    (hs : sniff first = .got (some .memcache)) :
    feed parse exec onErr (newConn st) (first :: chunks) = feed parse exec onErr ⟨[], .memcache, false, st⟩ (first :: chunks) := by
  have hne : first ≠ [] := by rintro rfl; exact absurd hs (by decide)
  unfold feed
  congr 1
  unfold evdata newConn
  simp only [Bool.false_eq_true, if_false, List.nil_append, if_neg hne, if_true, hs, PR.bind, reduceCtorEq]

/-- A first chunk that holds a whole line, begins with a letter in lower case, and has no " HTTP" in that line: the protocol is recognised. -/
theorem sniff_mc {w rest : Bytes} {b : UInt8} (hb : 97 ≤ b) (hw : ∀ c ∈ b :: w, c ≠ 10) (hh : ¬ [32, 72, 84, 84, 80] <:+: b :: w) :
    sniff (b :: w ++ 10 :: rest) = .got (some .memcache) := by
  have h0 : b ≠ 42 ∧ b ≠ 0 ∧ b ≠ 32 ∧ ¬ b ≤ 90 := by
    refine ⟨?_, ?_, ?_, ?_⟩
    · rintro rfl; exact absurd hb (by decide)
    · rintro rfl; exact absurd hb (by decide)
    · rintro rfl; exact absurd hb (by decide)
    · intro hc
      have := UInt8.le_trans hb hc
      exact absurd this (by decide)
  have hl : lineLen (b :: w ++ 10 :: rest) = (b :: w).length + 1 := by
    unfold lineLen
    have : (b :: w ++ 10 :: rest).findIdx? (· = 10) = some (b :: w).length := by
      rw [List.findIdx?_append]
      have h1 : (b :: w).findIdx? (· = 10) = none := by
        rw [List.findIdx?_eq_none_iff]
        intro x hx
        simpa using hw x hx
      rw [h1]
      simp [List.findIdx?_cons]
    rw [this]
  have hnot : ¬ (lineLen (b :: w ++ 10 :: rest) ≥ 11 ∧ ((b :: w ++ 10 :: rest).drop (lineLen (b :: w ++ 10 :: rest) - 11)).take 5 = [32, 72, 84, 84, 80] ∧
      (b :: w ++ 10 :: rest)[lineLen (b :: w ++ 10 :: rest) - 4]? = some 46 ∧ (b :: w ++ 10 :: rest)[lineLen (b :: w ++ 10 :: rest) - 2]? = some 13) := by
    rintro ⟨h1, h2, _⟩
    apply hh
    rw [hl] at h1 h2
    rw [List.drop_append_of_le_length (by omega), List.take_append_of_le_length (by rw [List.length_drop]; omega)] at h2
    rw [← h2]
    exact (List.take_prefix _ _).isInfix.trans (List.drop_suffix _ _).isInfix
  have hd : (b :: w ++ 10 :: rest).dropWhile (· = 32) = b :: w ++ 10 :: rest := by
    simp [h0.2.2.1]
  unfold sniff
  rw [if_neg (by simp [h0.1]), if_neg (by simp [h0.2.1])]
  simp only []
  rw [if_neg hnot]
  simp only [hd, hl]
  simp [h0.2.2.2]

/-- **C100** (`_partial`: where `Off` says so, the server does something else; no `noreply`, `flush_all`, `gat`, `stats`, `verbosity`, `quit`).  A new connection to a cache in
any reachable state, with CAS tokens switched on; its first chunk tells that it speaks memcache (`sniff_mc` says when it does).  Any sequence of commands, any way of
writing them, any division of the bytes into chunks, any (not decreasing) times.  Exactly the commands that have arrived completely are
answered, in order, each by what the memcache server that a user has in mind answers, in bytes that a client reads as just that; except for the exact cases and bytes listed
in `Off`.  The connection stays open.  (Unless a distance counter of the hash table has wrapped, C01; memory is not low, and no other client is active.) -/
theorem mc_served_partial {c : Ctx} (hv : c.Valid) (hu : c.usecas = true) {n : Nat} (hn : 0 < n) {shs : Shards} (h : AllInv c n shs) {now0 : Int} {s : Spec.State}
    (hR : R c n now0 shs s) {pw : Bytes} {y : Sys} (hver : ∀ b ∈ y.version, 32 ≤ b) {clock : Nat → Env} (hclock : ∀ i, Fine (clock i))
    (hmono : ∀ i, (clock i).now ≤ (clock (i + 1)).now) (h0 : now0 ≤ (clock 0).now) {others : Proto → Bytes → PR (Mc.Req × Nat)} {onErr : Wire.Srv → Wire.Srv}
    {as : List Ask} {ws : List Bytes} (hw : List.Forall₂ Writes as ws) {first : Bytes} {chunks : List Bytes} (hs : sniff first = .got (some .memcache))
    (hc : (first :: chunks).flatten <+: ws.flatten) :
    ∃ conn k tail, serve c n pw y clock others onErr shs (first :: chunks) = .got conn ∧ Received ws (first :: chunks).flatten k tail ∧
      (Wire.Wrapped n conn.st.cache ∨
        conn.closed = false ∧ conn.packet = tail ∧ (∃ shs', conn.st.cache = .val shs') ∧
        ∃ rs m', rs.length = k ∧ Talk y.version (timed clock 0 (as.take k)) (ofState (shardIdx c n) s) rs conn.st.sent m') := by
  obtain ⟨qs, hq1, hq2, hq3⟩ : ∃ qs, List.Forall₂ Mc.Request qs ws ∧ (∀ w ∈ ws, w ≠ Mc.joined [[100, 101, 108, 101, 116, 101], Mc.noreplyWord] ++ [13, 10]) ∧
      List.Forall₂ (Handled y) as qs := by
    clear hc
    induction hw with
    | nil => exact ⟨[], .nil, by simp, .nil⟩
    | cons h1 _ ih =>
      obtain ⟨qs, a1, a2, a3⟩ := ih
      obtain ⟨q, b1, b2, b3, _⟩ := writes_handled hver h1
      exact ⟨q :: qs, .cons b1 a1, by simpa using ⟨b2, a2⟩, .cons b3 a3⟩
  obtain ⟨conn, k, tail, h1, h2, h3, h4⟩ := Mc.mc_chunking_partial (exec c n pw y clock) onErr hq1 hq2 (first :: chunks) hc ⟨.val shs, ⟨true⟩, [], 0⟩ others
  refine ⟨conn, k, tail, (feed_new hs).trans h1, h2, ?_⟩
  have hag : Agrees (shardIdx c n) (clock 0).now s (ofState (shardIdx c n) s) :=
    ⟨fun k => (see_get _ _ _ _).symm, fun k => le_refl _⟩
  have key := run_all (pw := pw) hv hu hn hclock hmono (List.forall₂_take k hq3) shs h [] 0
  rw [Prod.ext_iff] at h3
  simp only [] at h3
  rw [← h3.1, ← h3.2] at key
  have hk : (as.take k).length = k := by
    rw [List.length_take, hw.length_eq]
    have := h2.2.1
    omega
  have hlen : ∀ {l m rs b m'}, Talk y.version l m rs b m' → rs.length = l.length := by
    intro l m rs b m' ht
    induction ht with
    | nil => rfl
    | good _ _ _ ih => simp [ih]
    | off _ _ ih => simp [ih]
  have htl : ∀ (i : Nat) (l : List Ask), (timed clock i l).length = l.length := by
    intro i l
    induction l generalizing i with
    | nil => rfl
    | cons a l ih => simp [timed, ih]
  rcases key with ⟨shs', k1, _, k3⟩ | k1
  · by_cases hnw : NoWrap n shs'
    · right
      obtain ⟨_, k4⟩ := k3 hnw
      obtain ⟨k5, rs, m', bytes, k6, k7⟩ := k4 now0 s _ h0 hR hag
      refine ⟨k5, h4 k5, ⟨_, k1⟩, rs, m', ?_, ?_⟩
      · rw [hlen k6, htl, hk]
      · rw [k7, List.nil_append]; exact k6
    · left
      rw [k1]
      exact hnw
  · left
    rw [k1]
    trivial

end Verif.McWire
