import Verif.Pg.Props

/-!
C91: a portal runs the statement to which it was bound.
-/

namespace Verif.Pg

/-- The messages that a client sends one after the other (none ends the connection) and the states between them; the replies in between may
change the flags of the state, but neither statements nor portals (`respond_same`). -/
inductive Sends (hash : Nat → Nat) (pw : Bytes) : State → List Msg → State → Prop where
  | done {a b : State} : Same a b → Sends hash pw a [] b
  | msg {a a' b c : State} {m : Msg} {ms : List Msg} {args : List Bytes} : Same a a' → handle hash pw a' m = .ok args b →
      Sends hash pw b ms c → Sends hash pw a (m :: ms) c

/-- A message of a type that begins with a name. -/
def Names (t : UInt8) (name : Bytes) (m : Msg) : Prop := ∃ rest, m = .typed t (name ++ 0 :: rest)

/-- The full claim, for one client: a query is prepared, bound, other messages follow, then the portal is executed: the words of the query that
was bound are executed, with the values that were bound. -/
def RunsBound (hash : Nat → Nat) (pw : Bytes) (pg0 : State) (name portal : Bytes) (q : Query) (ps : List Bytes) (ms : List Msg) : Prop :=
  ∀ pg1 pg1' pg2 pg3, handle hash pw pg0 (.typed 80 (parseMsg name (text q) [])) = .ok [] pg1 → Same pg1 pg1' →
    handle hash pw pg1' (.typed 66 (bindMsg portal name [] ps [])) = .ok [] pg2 → Sends hash pw pg2 ms pg3 → ∀ limit,
      ∃ pg4, handle hash pw pg3 (.typed 69 (executeMsg portal limit)) = .ok (words ps q) pg4

theorem cstr_prefix {s name rest : Bytes} (h : cstr s = some (name, rest)) : s = name ++ 0 :: rest := by
  unfold cstr at h
  induction s generalizing name with
  | nil => simp [Http.upTo] at h
  | cons b s ih =>
    unfold Http.upTo at h
    split at h
    · rename_i hb
      simp at h
      rw [h.1, h.2, hb]; rfl
    · rcases hu : Http.upTo 0 s with _ | ⟨a, r⟩
      · simp [hu] at h
      · simp [hu] at h
        obtain ⟨rfl, rfl⟩ := h
        rw [ih hu]; rfl

/-- Which messages change what a name stands for. -/
theorem handle_keeps {hash : Nat → Nat} {pw : Bytes} {pg pg' : State} {m : Msg} {args : List Bytes}
    (h : handle hash pw pg m = .ok args pg') :
    (∀ name, ¬ Names 80 name m → pg'.statements.lookup name = pg.statements.lookup name) ∧
    (∀ name, ¬ Names 66 name m → pg'.portals.lookup name = pg.portals.lookup name) := by
  have same : ∀ {pg1 : State}, Same pg pg1 →
      (∀ name, ¬ Names 80 name m → pg1.statements.lookup name = pg.statements.lookup name) ∧
      (∀ name, ¬ Names 66 name m → pg1.portals.lookup name = pg.portals.lookup name) :=
    fun hs => ⟨fun _ _ => by rw [hs.1], fun _ _ => by rw [hs.2]⟩
  cases m with
  | magic code s =>
    simp only [handle] at h
    repeat' split at h
    all_goals first | (simp at h; done) | (simp only [MRes.ok.injEq] at h; rw [← h.2]; exact same ⟨rfl, rfl⟩)
  | short t =>
    simp only [handle] at h
    split at h
    · simp at h
    · simp only [MRes.ok.injEq] at h; rw [← h.2]; exact same ⟨rfl, rfl⟩
  | typed t s =>
    simp only [handle] at h
    split at h
    · unfold parseQ at h
      repeat' split at h
      all_goals first | (simp at h; done) | (simp only [MRes.ok.injEq] at h; rw [← h.2]; exact same ⟨rfl, rfl⟩)
    · split at h
      · rename_i ht
        unfold parseP at h
        split at h
        · simp at h
        · rename_i name s1 hc
          repeat' split at h
          all_goals first
            | (simp at h; done)
            | (simp only [MRes.ok.injEq] at h; rw [← h.2]; exact same ⟨rfl, rfl⟩)
            | skip
          simp only [MRes.ok.injEq] at h
          rw [← h.2]
          refine ⟨fun n hn => ?_, fun _ _ => rfl⟩
          have hne : n ≠ name := by
            rintro rfl
            exact hn ⟨s1, by rw [ht, cstr_prefix hc]⟩
          have hb : (n == name) = false := by simpa using hne
          simp [List.lookup_cons, hb]
      · split at h
        · split at h
          · simp only [MRes.ok.injEq] at h; rw [← h.2]; exact same ⟨rfl, rfl⟩
          · simp at h
        · split at h
          · unfold parseE at h
            repeat' split at h
            all_goals first | (simp at h; done) | (simp only [MRes.ok.injEq] at h; rw [← h.2]; exact same ⟨rfl, rfl⟩)
          · split at h
            · unfold parsep at h
              repeat' split at h
              all_goals first | (simp at h; done) | (simp only [MRes.ok.injEq] at h; rw [← h.2]; exact same ⟨rfl, rfl⟩)
            · split at h
              · unfold parseD at h
                repeat' split at h
                all_goals first | (simp at h; done) | (simp only [MRes.ok.injEq] at h; rw [← h.2]; exact same ⟨rfl, rfl⟩)
              · split at h
                · rename_i ht
                  unfold parseB at h
                  split at h
                  · simp at h
                  · rename_i name s1 hc
                    repeat' split at h
                    all_goals first
                      | (simp at h; done)
                      | (simp only [MRes.ok.injEq] at h; rw [← h.2]; exact same ⟨rfl, rfl⟩)
                      | skip
                    simp only [MRes.ok.injEq] at h
                    rw [← h.2]
                    refine ⟨fun _ _ => rfl, fun n hn => ?_⟩
                    have hne : n ≠ name := by
                      rintro rfl
                      exact hn ⟨s1, by rw [ht, cstr_prefix hc]⟩
                    have hb : (n == name) = false := by simpa using hne
                    simp [List.lookup_cons, hb]
                · split at h
                  · split at h
                    · simp only [MRes.ok.injEq] at h; rw [← h.2]; exact same ⟨rfl, rfl⟩
                    · simp at h
                  · simp only [MRes.ok.injEq] at h; rw [← h.2]; exact same ⟨rfl, rfl⟩

theorem sends_keeps {hash : Nat → Nat} {pw : Bytes} {a b : State} {ms : List Msg} (h : Sends hash pw a ms b) {name portal : Bytes}
    (hm : ∀ m ∈ ms, ¬ Names 80 name m ∧ ¬ Names 66 portal m) :
    b.statements.lookup name = a.statements.lookup name ∧ b.portals.lookup portal = a.portals.lookup portal := by
  induction h with
  | done hs => rw [hs.1, hs.2]; exact ⟨rfl, rfl⟩
  | msg hs hh _ ih =>
    obtain ⟨h1, h2⟩ := hm _ (List.mem_cons_self)
    have hk := handle_keeps hh
    obtain ⟨g1, g2⟩ := ih fun m hmm => hm m (List.mem_cons_of_mem _ hmm)
    rw [g1, g2, hk.1 _ h1, hk.2 _ h2, hs.1, hs.2]
    exact ⟨rfl, rfl⟩

/-- C91: it holds when none of the messages in between prepares a statement of the same name or binds the same portal, whatever else they do. -/
theorem portal_runs_bound_partial (hash : Nat → Nat) (pw : Bytes) (pg0 : State) (name portal : Bytes) (hn : Name name) (hpo : Name portal)
    {q : Query} (h : Valid q) (hfirst : ∀ x, q.head? = some x → x.1 = false) (hp : EachOnce q)
    (ps : List Bytes) (hps : ∀ p ∈ ps, p.length < 2147483648) (hl : ps.length = (paramsOf q).length) (hpl : ps.length < 65536)
    (ms : List Msg) (hm : ∀ m ∈ ms, ¬ Names 80 name m ∧ ¬ Names 66 portal m) : RunsBound hash pw pg0 name portal q ps ms := by
  intro pg1 pg1' pg2 pg3 e1 hs1 e2 hs limit
  rw [parse_done hash pw pg0 name hn h hfirst hp [] (by simp)] at e1
  rw [bind_done hash pw pg1' portal name hpo hn [] (by simp) (by simp) ps hps hpl [] (by simp)] at e2
  simp only [MRes.ok.injEq, true_and] at e1 e2
  obtain ⟨g1, g2⟩ := sends_keeps hs hm
  refine ⟨_, execute_done hash pw pg3 portal name hpo hn h hfirst ps hl hp ?_ ?_ limit⟩
  · rw [g2, ← e2]; simp
  · rw [g1, ← e2]
    show pg1'.statements.lookup name = _
    rw [← hs1.1, ← e1]; simp

/-- A Sync, another statement, and another portal of the statement in between. -/
example : ∀ m ∈ [Msg.typed 83 [], .typed 80 (parseMsg [116] (text setQuery) []), .typed 66 (bindMsg [121] [115] [] [[49]] [])],
    ¬ Names 80 [115] m ∧ ¬ Names 66 [120] m := by
  intro m hm
  simp only [List.mem_cons, List.not_mem_nil, or_false] at hm
  rcases hm with rfl | rfl | rfl <;> refine ⟨?_, ?_⟩ <;> rintro ⟨rest, hr⟩ <;> simp [parseMsg, bindMsg] at hr

/-- `set k a` -/
def setText : Query := [(false, .word [115, 101, 116]), (false, .word [107]), (false, .word [97])]

/-- `del k` -/
def delText : Query := [(false, .word [100, 101, 108]), (false, .word [107])]

/-- C91, the failing part.  A client prepares `set k a` as the unnamed statement, binds the portal `p` to it, and prepares `del k` as the next unnamed
statement.  Executing `p` runs `del k`. -/
theorem portal_runs_other (hash : Nat → Nat) (pw : Bytes) (pg0 : State) :
    ¬ RunsBound hash pw pg0 [] [112] setText [] [.typed 80 (parseMsg [] (text delText) [])] := by
  intro hr
  have hv1 : Valid setText := by simp [setText, Valid, Piece.Ok]
  have hv2 : Valid delText := by simp [delText, Valid, Piece.Ok]
  have e1 : EachOnce setText := by intro i h1 h2; simp [setText, paramsOf] at h2; omega
  have e2 : EachOnce delText := by intro i h1 h2; simp [delText, paramsOf] at h2; omega
  have n0 : Name [] := ⟨by simp, by simp⟩
  have n1 : Name [112] := ⟨by simp, by simp⟩
  have f1 : ∀ x, setText.head? = some x → x.1 = false := by simp [setText]
  have f2 : ∀ x, delText.head? = some x → x.1 = false := by simp [delText]
  obtain ⟨pg1, hpg1⟩ : ∃ pg1, handle hash pw pg0 (.typed 80 (parseMsg [] (text setText) [])) = .ok [] pg1 :=
    ⟨_, parse_done hash pw pg0 [] n0 hv1 f1 e1 [] (by simp)⟩
  obtain ⟨pg2, hpg2⟩ : ∃ pg2, pg2 = { pg1 with error := false, bind := true, portals := ([112], (⟨[], []⟩ : Portal)) :: pg1.portals } := ⟨_, rfl⟩
  have hb := bind_done hash pw pg1 [112] [] n1 n0 [] (by simp) (by simp) [] (by simp) (by simp) [] (by simp)
  rw [← hpg2] at hb
  obtain ⟨pg3, hpg3⟩ : ∃ pg3, pg3 = { pg2 with error := false, parse := true, statements := ([], (⟨(paramsOf delText).length, toks delText⟩ : Stmt)) :: pg2.statements } := ⟨_, rfl⟩
  have hd := parse_done hash pw pg2 [] n0 hv2 f2 e2 [] (by simp)
  rw [← hpg3] at hd
  obtain ⟨pg4, h4⟩ := hr pg1 pg1 pg2 pg3 hpg1 ⟨rfl, rfl⟩ hb (.msg ⟨rfl, rfl⟩ hd (.done ⟨rfl, rfl⟩)) 0
  have he := execute_done hash pw pg3 [112] [] n1 n0 hv2 f2 [] (by simp [delText, paramsOf]) e2
    (by rw [hpg3, hpg2]; simp) (by rw [hpg3]; simp) 0
  rw [h4] at he
  simp only [MRes.ok.injEq] at he
  exact absurd he.1 (by decide)

end Verif.Pg
