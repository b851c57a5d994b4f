import Mathlib.Tactic.Common
import Verif.Pg.Reply

/-!
C78: every query on a Postgres connection gets one answer, which a client can read, and what it says.
-/

namespace Verif.Pg

open Verif.Num Verif.Resp Verif.Cache Verif.Cmd
open Function (update)

/-! ### Answers of commands -/

theorem nul_cut (t : Bytes) : 0 ∉ t.takeWhile (· ≠ 0) := by
  induction t with
  | nil => simp
  | cons b t ih =>
    rw [List.takeWhile_cons]
    split
    · rename_i hb
      intro h
      rcases List.mem_cons.1 h with h | h
      · subst h; simp at hb
      · exact ih h
    · simp

theorem nul_text (m : ErrMsg) : 0 ∉ m.text := by
  have quoted : ∀ (p t : Bytes) (n : Nat), 0 ∉ p → 0 ∉ (p ++ t.takeWhile (· ≠ 0) ++ [39]).take n := by
    intro p t n hp h
    have h := List.mem_of_mem_take h
    simp only [List.mem_append, List.mem_singleton] at h
    rcases h with (h | h) | h
    · exact hp h
    · exact nul_cut _ h
    · revert h; decide
  cases m
  case unknownCommand t => exact quoted _ _ _ (by decide)
  case unknownType t => exact quoted _ _ _ (by decide)
  all_goals
    simp only [ErrMsg.text]
    decide

/-- What an error says. -/
def said (t : Bytes) : Bytes := if [69, 82, 82, 32].isPrefixOf t then t.drop 4 else t

/-- An error with the text. -/
def failedWith (t : Bytes) : Answer := .failed [(83, [69, 82, 82, 79, 82]), (86, [69, 82, 82, 79, 82]), (67, [50, 51, 53, 48, 53]), (77, t)]

theorem nul_said {t : Bytes} (h : 0 ∉ t) : 0 ∉ said t := by
  unfold said
  split
  · exact fun hc => h (List.mem_of_mem_drop hc)
  · exact h

theorem body_err {t : Bytes} (h : 0 ∉ t) (hf : (sendError (said t)).length ≤ 2147483648) : Body (failedWith (said t)) (sendError (said t)) :=
  body_error (nul_said h) hf

theorem oid_lt (pg : State) : pg.oid < 4294967296 := by unfold State.oid; split <;> decide

theorem ready_fit {pg : State} {b : Bytes} (h : b ∈ sendReady pg) : b = [90, 0, 0, 0, 5, 73] := by
  unfold sendReady at h; split at h <;> simp_all

/-- What a command writes is an answer and "ready". -/
theorem answer_of {pg : State} {out : List W} (h : PgAnswer out) (hf : ∀ b ∈ out.flatMap (send pg), b.length ≤ 2147483648) :
    ∃ a b, Body a b ∧ (out.flatMap (send pg)).flatten = b ++ (sendReady pg).flatten := by
  induction h with
  | err m =>
    have := hf (sendError (said m.text)) (by simp [send, writeErr, said])
    exact ⟨_, _, body_err (nul_text m) this, by simp [send, writeErr, said]⟩
  | tag h =>
    rename_i t
    have := hf (sendComplete t) (by simp [send, pgEnd])
    exact ⟨_, _, body_complete h this, by simp [send, pgEnd]⟩
  | table h hn hl hr =>
    rename_i names rows t
    have h1 := hf (sendComplete t) (by simp [send, pgEnd])
    have h2 := hf (sendDesc pg.oid names) (by simp [send])
    refine ⟨_, _, body_table (oid_lt pg) hn hl (fun r hr' => ⟨hr r hr', hf _ ?_⟩) h h2 h1, ?_⟩
    · simp only [List.flatMap_cons, List.flatMap_append, List.mem_append]
      refine Or.inr (Or.inl ?_)
      rw [List.mem_flatMap]
      exact ⟨_, List.mem_map_of_mem hr', by simp [send]⟩
    · have : (rows.map fun r => W.pg (.row r)).flatMap (send pg) = rows.map sendRow := by
        induction rows with
        | nil => rfl
        | cons r rows ih =>
          rw [List.map_cons, List.flatMap_cons, List.map_cons, ih (fun r h => hr r (by simp [h])) (fun b hb => hf b ?_)]
          · rfl
          · simp only [List.map_cons, List.flatMap_cons, List.cons_append, List.mem_append] at hb ⊢
            rcases hb with hb | hb
            · exact Or.inl hb
            · exact Or.inr (Or.inr hb)
      rw [List.flatMap_cons, List.flatMap_append, this]
      simp [send, pgEnd]
  | spawn h t ih =>
    obtain ⟨a, b, h1, h2⟩ := ih (fun b hb => hf b (by rw [List.flatMap_append]; exact List.mem_append_left _ hb))
    exact ⟨a, b, h1, by rw [List.flatMap_append, List.flatten_append, h2]; simp [send]⟩

theorem answer_calm {out : List W} (h : PgAnswer out) : W.close ∉ out ∧ W.undefined ∉ out ∧ W.failed ∉ out := by
  induction h with
  | err m => simp
  | tag h => simp [pgEnd]
  | table h hn hl hr => simp [pgEnd]
  | spawn h t ih => simpa using ih

/-! ### Parsing ends -/

theorem tokens_ends (hash : Nat → Nat) : ∀ (f : Nat) (s : Bytes) (join esc : Bool) (acc : List Tok) (m : Pmap) (S : List Nat), m.Is hash S →
    ∃ r, tokens hash f s join esc acc m = some r ∧ ∀ ts m', r = some (ts, m') → ∃ S', m'.Is hash S' := by
  intro f
  induction f with
  | zero => intro s join esc acc m S _; exact ⟨none, rfl, by simp⟩
  | succ f ih =>
    intro s join esc acc m S h
    have none_ok : ∃ r : Option (List Tok × Pmap), some none = some r ∧ ∀ ts m', r = some (ts, m') → ∃ S', m'.Is hash S' := ⟨none, rfl, by simp⟩
    have acc_ok : ∃ r : Option (List Tok × Pmap), some (some (acc, m)) = some r ∧ ∀ ts m', r = some (ts, m') → ∃ S', m'.Is hash S' :=
      ⟨_, rfl, by rintro ts m' h'; cases h'; exact ⟨S, h⟩⟩
    cases s with
    | nil => exact acc_ok
    | cons b s =>
      rw [tokens]
      by_cases c1 : b = 59
      · rw [if_pos c1]
        by_cases c : s.all (· = 59)
        · rw [if_pos c]; exact acc_ok
        · rw [if_neg c]; exact none_ok
      rw [if_neg c1]
      by_cases c2 : b = 34
      · rw [if_pos c2]; exact none_ok
      rw [if_neg c2]
      by_cases c3 : b = 39
      · rw [if_pos c3]
        split
        · exact none_ok
        · exact ih _ _ _ _ _ S h
      rw [if_neg c3]
      by_cases c4 : b = 36
      · rw [if_pos c4]
        simp only []
        by_cases c : (s.takeWhile fun c => 48 ≤ c && c ≤ 57) = []
        · rw [if_pos c]; exact none_ok
        rw [if_neg c]
        by_cases c' : digitsVal 0 (s.takeWhile fun c => 48 ≤ c && c ≤ 57) = 0 ∨ digitsVal 0 (s.takeWhile fun c => 48 ≤ c && c ≤ 57) > 65535
        · rw [if_pos c']; exact none_ok
        rw [if_neg c']
        obtain ⟨m', h1, h2⟩ := Pmap.insert_is h (digitsVal 0 (s.takeWhile fun c => 48 ≤ c && c ≤ 57)) (fun hc => c' (Or.inl hc))
        rw [h1]
        exact ih _ _ _ _ _ _ h2
      rw [if_neg c4]
      by_cases c5 : (b = 69 ∨ b = 101) ∧ s.head? = some 39
      · rw [if_pos c5]
        split
        · exact none_ok
        · exact ih _ _ _ _ _ S h
      rw [if_neg c5]
      by_cases c6 : isSpace b
      · rw [if_pos c6]; exact ih _ _ _ _ _ S h
      · rw [if_neg c6]; exact ih _ _ _ _ _ S h

/-- The parser of queries always ends, for any hash function. -/
theorem parseQuery_ends (hash : Nat → Nat) (q : Bytes) : ∃ r, parseQuery hash q = some r := by
  unfold parseQuery
  simp only []
  obtain ⟨r, h1, h2⟩ := tokens_ends hash ((q.dropWhile isSpace).length + 1) (q.dropWhile isSpace) false false [] Pmap.init [] (Pmap.init_is hash)
  rw [h1]
  cases r with
  | none => exact ⟨none, rfl⟩
  | some x =>
    obtain ⟨ts, m⟩ := x
    obtain ⟨S, hS⟩ := h2 ts m rfl
    obtain ⟨b, h3, _⟩ := checkParams_iff hS m.count
    refine ⟨if b = true then some (ts, m.count) else none, ?_⟩
    simp only [Option.bind_some]
    rw [h3]
    rfl

/-! ### Queries -/

/-- Between queries: the connection is past its start, and no reply is due.  (`startup` and `error` may have any value.) -/
structure Idle (pg : State) : Prop where
  ready : pg.ready = true
  emptyQuery : pg.emptyQuery = false
  parse : pg.parse = false
  bind : pg.bind = false
  execute : pg.execute = false
  describe : pg.describe = false
  sync : pg.sync = false
  close : pg.close = false
  ssl : pg.ssl = false
  auth : pg.auth = false

theorem Idle.error {pg : State} (h : Idle pg) (b : Bool) : Idle { pg with error := b } := ⟨h.1, h.2, h.3, h.4, h.5, h.6, h.7, h.8, h.9, h.10⟩

theorem Idle.bytea {pg : State} (h : Idle pg) (b : Bool) : Idle { pg with bytea := b } := ⟨h.1, h.2, h.3, h.4, h.5, h.6, h.7, h.8, h.9, h.10⟩

theorem precommand_cases (pg : State) (a : Bytes) (as : List Bytes) :
    (∃ t, precommand pg (a :: as) = .inl ([.tag t, .ready], pg) ∧ 0 ∉ t ∧ t.length ≤ 8) ∨
    (∃ t b, precommand pg (a :: as) = .inl ([.tag t, .ready], { pg with bytea := b }) ∧ 0 ∉ t ∧ t.length ≤ 8) ∨
    (∃ t, precommand pg (a :: as) = .inl ([.badType t, .ready], pg)) ∨
    (∃ args b, precommand pg (a :: as) = .inr (args, { pg with bytea := b }) ∧ args ≠ [] ∧ args <:+ a :: as) := by
  by_cases c1 : argeq a [98, 101, 103, 105, 110] = true
  · exact Or.inl ⟨[66, 69, 71, 73, 78], by rw [precommand, if_pos c1], by decide, by decide⟩
  by_cases c2 : argeq a [114, 111, 108, 108, 98, 97, 99, 107] = true
  · exact Or.inl ⟨[82, 79, 76, 76, 66, 65, 67, 75], by rw [precommand, if_neg c1, if_pos c2], by decide, by decide⟩
  by_cases c3 : argeq a [99, 111, 109, 109, 105, 116] = true
  · exact Or.inl ⟨[67, 79, 77, 77, 73, 84], by rw [precommand, if_neg c1, if_neg c2, if_pos c3], by decide, by decide⟩
  by_cases c4 : [58, 58].isPrefixOf a = true
  · by_cases c5 : argeq a [58, 58, 98, 121, 116, 101, 97] = true ∨ argeq a [58, 58, 98, 121, 116, 101, 115] = true
    · by_cases c6 : as = []
      · refine Or.inr (Or.inl ⟨[66, 89, 84, 69, 65], true, ?_, by decide, by decide⟩)
        rw [precommand, if_neg c1, if_neg c2, if_neg c3, if_pos c4, if_pos c5]; exact if_pos c6
      · refine Or.inr (Or.inr (Or.inr ⟨as, true, ?_, c6, List.suffix_cons _ _⟩))
        rw [precommand, if_neg c1, if_neg c2, if_neg c3, if_pos c4, if_pos c5]; exact if_neg c6
    · by_cases c7 : argeq a [58, 58, 116, 101, 120, 116] = true
      · by_cases c6 : as = []
        · refine Or.inr (Or.inl ⟨[84, 69, 88, 84], false, ?_, by decide, by decide⟩)
          rw [precommand, if_neg c1, if_neg c2, if_neg c3, if_pos c4, if_neg c5, if_pos c7]; exact if_pos c6
        · refine Or.inr (Or.inr (Or.inr ⟨as, false, ?_, c6, List.suffix_cons _ _⟩))
          rw [precommand, if_neg c1, if_neg c2, if_neg c3, if_pos c4, if_neg c5, if_pos c7]; exact if_neg c6
      · refine Or.inr (Or.inr (Or.inl ⟨a.drop 2, ?_⟩))
        rw [precommand, if_neg c1, if_neg c2, if_neg c3, if_pos c4, if_neg c5, if_neg c7]
  · refine Or.inr (Or.inr (Or.inr ⟨a :: as, pg.bytea, ?_, by simp, List.suffix_refl _⟩))
    rw [precommand, if_neg c1, if_neg c2, if_neg c3, if_neg c4]

/-- What an answered query leaves behind. -/
def Answered (out : List Bytes) (x : Client) : Prop :=
  x.live = true ∧ Idle x.pg ∧ ∃ a, ∀ rest, getAnswer (out.flatten ++ rest) = some (a, rest)

theorem answered_of {pg : State} (hi : Idle pg) {st : ConnSt} {a : Answer} {b : Bytes} {out : List Bytes} (h : Body a b) (ho : out.flatten = b ++ (sendReady pg).flatten) :
    Answered out ⟨pg, st, true⟩ := by
  refine ⟨rfl, hi, a, fun rest => ?_⟩
  rw [ho, sendReady, hi.execute]
  exact getAnswer_body h rest

section
variable {env : Spec.Env} {I : Spec.State → Spec.State → Prop} {oom : Bool} {hash : Nat → Nat} {c : Conf} {e : Env} {pw : Bytes} {y : Sys} {x x' : Client}
  {s s' : Spec.State} {out : List Bytes} {n : Nat}

/-- What is written for a request with arguments. -/
theorem perform_answer (hc : Clocks e) (hp : e.proto = .postgres) {pg : State} {st : ConnSt} {a : Bytes} {as : List Bytes}
    {k : Nat} (h : Runs env I oom e.now (perform c e pw (admin y) st k pg (a :: as)) s (out, n, x') s')
    (hf : ∀ b ∈ out, b.length ≤ 2147483648) :
    n = k ∧
    ((x'.live = true ∧ (∃ b, x'.pg = { pg with bytea := b }) ∧ ∃ a b, Body a b ∧ out.flatten = b ++ (sendReady x'.pg).flatten) ∨ (x'.live = false ∧ ∃ args, args <:+ a :: as ∧ (Spells (args.headD []) [113, 117, 105, 116] ∨ IsPopulate args ∨ IsWildScan y args))) := by
  have perf : ∀ (b : Bool) {st : ConnSt} {a : Answer} {bs : Bytes} {out : List Bytes}, Body a bs → out.flatten = bs ++ (sendReady { pg with bytea := b }).flatten →
      (⟨{ pg with bytea := b }, st, true⟩ : Client).live = true ∧ (∃ b', (⟨{ pg with bytea := b }, st, true⟩ : Client).pg = { pg with bytea := b' }) ∧
      ∃ a bs, Body a bs ∧ out.flatten = bs ++ (sendReady (⟨{ pg with bytea := b }, st, true⟩ : Client).pg).flatten :=
    fun b _ _ _ _ h1 h2 => ⟨rfl, ⟨b, rfl⟩, _, _, h1, h2⟩
  unfold perform at h
  rcases precommand_cases pg a as with ⟨t, h1, h0, hl⟩ | ⟨t, b, h1, h0, hl⟩ | ⟨t, h1⟩ | ⟨args, b, h1, hne, hsuf⟩
  · rw [h1] at h
    obtain ⟨h2, _⟩ := runs_ret h
    simp only [Prod.mk.injEq] at h2
    obtain ⟨rfl, rfl, rfl⟩ := h2
    refine ⟨rfl, ?_⟩
    exact Or.inl (perf pg.bytea (body_complete h0 (by simp [sendComplete, writeI32]; omega)) (by simp [sendReply]))
  · rw [h1] at h
    obtain ⟨h2, _⟩ := runs_ret h
    simp only [Prod.mk.injEq] at h2
    obtain ⟨rfl, rfl, rfl⟩ := h2
    refine ⟨rfl, ?_⟩
    exact Or.inl (perf b (body_complete h0 (by simp [sendComplete, writeI32]; omega)) (by simp [sendReply]))
  · rw [h1] at h
    obtain ⟨h2, _⟩ := runs_ret h
    simp only [Prod.mk.injEq] at h2
    obtain ⟨rfl, rfl, rfl⟩ := h2
    refine ⟨rfl, ?_⟩
    refine Or.inl (perf pg.bytea (body_error (t := (([117, 110, 107, 110, 111, 119, 110, 32, 116, 121, 112, 101, 32, 39] ++ t.takeWhile (· ≠ 0) ++ [39]).take 127)) ?_ ?_)
      (by simp [sendReply]))
    · intro hc
      have hc := List.mem_of_mem_take hc
      simp only [List.mem_append, List.mem_singleton] at hc
      rcases hc with (hc | hc) | hc
      · revert hc; decide
      · exact nul_cut _ hc
      · revert hc; decide
    · refine hf _ ?_
      simp [sendReply]
  · rw [h1] at h
    obtain ⟨r, h2, h3⟩ := runs_map h
    simp only [Prod.mk.injEq] at h3
    obtain ⟨rfl, rfl, rfl⟩ := h3
    refine ⟨rfl, ?_⟩
    rcases pg_evcommand hp hc hne I s _ s' h2 with ha | ⟨ha, ho⟩ | ⟨ha, ho⟩ | ⟨ha, ho⟩
    · left
      obtain ⟨a', b', h4, h5⟩ := answer_of ha hf
      rw [decide_eq_true (answer_calm ha)]
      exact perf b h4 h5
    · right
      exact ⟨by simp [ho], args, hsuf, Or.inl ha⟩
    · right
      refine ⟨?_, args, hsuf, Or.inr (Or.inl ha)⟩
      rcases ho with ho | ho <;> simp [ho]
    · right
      exact ⟨by simp [ho], args, hsuf, Or.inr (Or.inr ha)⟩

/-- Arguments on an idle connection. -/
theorem args_answered (hc : Clocks e) (hp : e.proto = .postgres) {pg : State} (hi : Idle pg) {st : ConnSt} {a : Bytes} {as : List Bytes}
    {k : Nat} (h : Runs env I oom e.now (perform c e pw (admin y) st k pg (a :: as)) s (out, n, x') s')
    (hf : ∀ b ∈ out, b.length ≤ 2147483648) :
    n = k ∧
    (Answered out x' ∨ (x'.live = false ∧ ∃ args, args <:+ a :: as ∧ (Spells (args.headD []) [113, 117, 105, 116] ∨ IsPopulate args ∨ IsWildScan y args))) := by
  obtain ⟨hn, ⟨h1, ⟨b, h2⟩, a', b', h3, h4⟩ | hd⟩ := perform_answer hc hp h hf
  · refine ⟨hn, Or.inl ?_⟩
    obtain ⟨pg', st', lv⟩ := x'
    simp only at h1 h2 h4
    subst h1 h2
    exact answered_of (hi.bytea b) h3 h4
  · exact ⟨hn, Or.inr hd⟩

theorem query_cases (hash : Nat → Nat) (pw : Bytes) (pg : State) {q : Bytes} (h0 : 0 ∉ q) :
    handle hash pw pg (.typed 81 (queryMsg q)) = .ok [] { pg with error := true } ∨
    handle hash pw pg (.typed 81 (queryMsg q)) = .ok [] { pg with error := false, emptyQuery := true } ∨
    ∃ t ts, parseQuery hash q = some (some (t :: ts, 0)) ∧
      handle hash pw pg (.typed 81 (queryMsg q)) = .ok (t.text :: ts.map (·.text)) { pg with error := false } := by
  have hh : handle hash pw pg (.typed 81 (queryMsg q)) = parseQ hash { pg with error := false } (q ++ [0]) := rfl
  rw [hh, parseQ, cstr_exact _ _ h0]
  simp only []
  obtain ⟨r, hr⟩ := parseQuery_ends hash q
  rw [hr]
  cases r with
  | none => exact Or.inl rfl
  | some r =>
    obtain ⟨ts, k⟩ := r
    by_cases hk : k > 0
    · refine Or.inl ?_
      simp only []
      rw [if_pos hk]
    obtain rfl : k = 0 := Nat.eq_zero_of_not_pos hk
    cases ts with
    | nil =>
      refine Or.inr (Or.inl ?_)
      simp only []
      rw [if_neg hk, if_pos trivial]
    | cons t ts =>
      refine Or.inr (Or.inr ⟨t, ts, rfl, ?_⟩)
      simp only []
      rw [if_neg hk, if_neg (by simp)]
      rfl

theorem respond_error {pw : Bytes} {pg : State} (h : pg.error = true) : respond pw pg = ([.error], pg, false, true) := by
  rw [respond, if_pos h]

theorem respond_empty {pw : Bytes} {pg : State} (h : pg.error = false) (h' : pg.emptyQuery = true) :
    respond pw pg = ([.empty], { pg with emptyQuery := false }, false, true) := by
  rw [respond, if_neg (by simp [h]), if_pos h']

theorem body_empty : Body .empty [73, 0, 0, 0, 4] := fun rest => by
  rw [getBody, show getMsg ([73, 0, 0, 0, 4] ++ rest) = _ from getMsg_written 73 (n := 4) (p := []) rfl (by decide) rest]
  rfl

theorem serve_none {other : Fn → Env → List Bytes → Prog (List W)} {data : Bytes} {m : Msg} {pg : State} (h1 : frame data = .got (m, n)) (h2 : handle hash pw x.pg m = .ok [] pg)
    {rs : List Reply} {pg' : State} {au lv : Bool} (h3 : respond pw pg = (rs, pg', au, lv)) :
    serve hash c e pw other x data = .ret (rs.flatMap (sendReply c pg'), n, ⟨pg', if au then ⟨true⟩ else x.st, lv⟩) := by
  unfold serve
  rw [h1]
  simp only []
  rw [h2]
  simp only []
  rw [h3]

theorem serve_some {other : Fn → Env → List Bytes → Prog (List W)} {data : Bytes} {m : Msg} {pg : State} {a : Bytes} {as : List Bytes} (h1 : frame data = .got (m, n))
    (h2 : handle hash pw x.pg m = .ok (a :: as) pg) (hr : pg.ready = true) :
    serve hash c e pw other x data = perform c e pw other x.st n pg (a :: as) := by
  unfold serve
  rw [h1]
  simp only []
  rw [h2]
  simp only []
  rw [if_neg (by simp [hr])]

theorem frame_query {q : Bytes} (rest : Bytes) (hlen : q.length + 5 < 2147483648) :
    frame (message 81 (queryMsg q) ++ rest) = .got (.typed 81 (queryMsg q), (message 81 (queryMsg q)).length) :=
  frame_message 81 _ rest (by decide) (by rw [queryMsg, List.length_append, List.length_singleton]; omega)

/-- **C78** (`_partial`: without QUIT, and without DEBUG POPULATE and SCAN with a wild cursor, which may crash; and for messages below 2 GB).  Any query, of any bytes except NUL, on an idle connection,
in all states and whatever other threads do: the whole message is used up, and what is written is exactly one answer — an error, nothing, a tag, or a
table in which each row has as many values as there are columns — ended by exactly one "ready for query"; and the connection is idle again. -/
theorem query_answered_partial (hc : Clocks e) (hp : e.proto = .postgres) (hi : Idle x.pg) (hlive : x.live = true) {q rest : Bytes} (h0 : 0 ∉ q)
    (hlen : q.length + 5 < 2147483648) (he : 0 ∉ c.lastError)
    (h : Runs env I oom e.now (serve hash c e pw (admin y) x (message 81 (queryMsg q) ++ rest)) s (out, n, x') s') (hf : ∀ b ∈ out, b.length ≤ 2147483648) :
    n = (message 81 (queryMsg q)).length ∧
    (Answered out x' ∨
      (x'.live = false ∧ ∃ ts args, parseQuery hash q = some (some (ts, 0)) ∧ args <:+ ts.map (·.text) ∧
        (Spells (args.headD []) [113, 117, 105, 116] ∨ IsPopulate args ∨ IsWildScan y args))) := by
  have hfr := frame_query rest hlen
  rcases query_cases hash pw x.pg h0 with hq | hq | ⟨t, ts, hq', hq⟩
  · rw [serve_none hfr hq (respond_error rfl)] at h
    obtain ⟨h2, _⟩ := runs_ret h
    simp only [Prod.mk.injEq] at h2
    obtain ⟨rfl, rfl, rfl⟩ := h2
    refine ⟨rfl, Or.inl (answered_of (hi.error true) (body_err he (hf _ ?_)) ?_)⟩
    · simp [sendReply, writeErr, said]
    · simp [sendReply, writeErr, said]
  · rw [serve_none hfr hq (respond_empty rfl rfl)] at h
    obtain ⟨h2, _⟩ := runs_ret h
    simp only [Prod.mk.injEq] at h2
    obtain ⟨rfl, rfl, rfl⟩ := h2
    refine ⟨rfl, Or.inl ⟨rfl, ⟨hi.1, rfl, hi.3, hi.4, hi.5, hi.6, hi.7, hi.8, hi.9, hi.10⟩, .empty, fun rest => ?_⟩⟩
    simpa [sendReply] using getAnswer_body body_empty rest
  · rw [serve_some hfr hq hi.ready] at h
    obtain ⟨rfl, ha | ⟨ha, args, h1, h2⟩⟩ := args_answered hc hp (hi.error false) h hf
    · exact ⟨rfl, Or.inl ha⟩
    · exact ⟨rfl, Or.inr ⟨ha, t :: ts, args, hq', by simpa using h1, h2⟩⟩

/-! ### Sequences of queries -/

/-- Turns of the loop of a connection, on the data it was sent: what they write, and what is left. -/
inductive Session (env : Spec.Env) (I : Spec.State → Spec.State → Prop) (hash : Nat → Nat) (pw : Bytes) (y : Sys) :
    Client → Spec.State → Bytes → List (List Bytes) → Client → Spec.State → Bytes → Prop
  | done (x : Client) (s : Spec.State) (d : Bytes) : Session env I hash pw y x s d [] x s d
  | turn {oom : Bool} {c : Conf} {e : Env} {x x1 x2 : Client} {s s1 s2 : Spec.State} {d d2 : Bytes} {out : List Bytes} {outs : List (List Bytes)} {n : Nat}
      (hc : Clocks e) (hp : e.proto = .postgres) (he : 0 ∉ c.lastError) (hlive : x.live = true)
      (h : Runs env I oom e.now (serve hash c e pw (admin y) x d) s (out, n, x1) s1) (hf : ∀ b ∈ out, b.length ≤ 2147483648)
      (ht : Session env I hash pw y x1 s1 (d.drop n) outs x2 s2 d2) : Session env I hash pw y x s d (out :: outs) x2 s2 d2

/-- **C78**, sequences.  As many turns as there are queries, at whatever times, with whatever other threads do in between: a client that reads one answer for each
query finds them, in order, and nothing else; and the server has read exactly the queries. -/
theorem queries_answered_partial {qs : List Bytes} (h0 : ∀ q ∈ qs, 0 ∉ q ∧ q.length + 5 < 2147483648) {rest d : Bytes} {outs : List (List Bytes)} (hi : Idle x.pg)
    (h : Session env I hash pw y x s ((qs.map fun q => message 81 (queryMsg q)).flatten ++ rest) outs x' s' d) (hl : outs.length = qs.length)
    (hlive : x'.live = true) :
    d = rest ∧ Idle x'.pg ∧ ∃ as, as.length = qs.length ∧ ∀ rest', getAnswers qs.length ((outs.map List.flatten).flatten ++ rest') = some (as, rest') := by
  induction qs generalizing x s outs with
  | nil =>
    cases h with
    | done => exact ⟨rfl, hi, [], rfl, fun rest' => rfl⟩
    | turn => simp at hl
  | cons q qs ih =>
    cases h with
    | done => simp at hl
    | turn hc hp he hl0 hr hf ht =>
      rw [List.map_cons, List.flatten_cons, List.append_assoc] at hr ht
      obtain ⟨hn, ha⟩ := query_answered_partial hc hp hi hl0 (h0 q (by simp)).1 (h0 q (by simp)).2 he hr hf
      rw [hn, List.drop_left] at ht
      rcases ha with ⟨h1, h2, a, h3⟩ | ⟨h1, _⟩
      · obtain ⟨g1, g2, as, g3, g4⟩ := ih (fun q hq => h0 q (by simp [hq])) h2 ht (by simpa using hl)
        refine ⟨g1, g2, a :: as, by simp [g3], fun rest' => ?_⟩
        rw [List.length_cons, getAnswers, List.map_cons, List.flatten_cons, List.append_assoc, h3, Option.bind_some, g4]
        rfl
      · cases ht with
        | done => rw [h1] at hlive; cases hlive
        | turn _ _ _ hl1 => rw [h1] at hl1; cases hl1

/-! ### What the answers say -/

/-- The query is written with the words, bare or in quotes, separated by blanks. -/
structure Writes (q : Query) (ws : List Bytes) : Prop where
  valid : Valid q
  apart : ∀ x ∈ q, x.1 = false
  noParam : ∀ x ∈ q, ∀ n, x.2 ≠ .param n
  words : q.map (fun x => x.2.plain) = ws

/-- No password is needed, or it was given. -/
def Allowed (pw : Bytes) (st : ConnSt) : Prop := pw = [] ∨ st.auth = true

theorem evcommand_allowed {other : Fn → Env → List Bytes → Prog (List W)} {st : ConnSt} (ha : Allowed pw st) {name low : Bytes} {as : List Bytes} {fn : Fn}
    (hs : Spells name low) (hm : (low, fn) ∈ cmds) : evcommand e pw other (name :: as) st = call e pw other fn (name :: as) st := by
  unfold evcommand
  simp only [List.headD_cons]
  rw [if_neg (by rintro ⟨h1, h2, _⟩; rcases ha with ha | ha; exacts [h1 ha, by rw [ha] at h2; cases h2]), getCmd_of hs hm]

theorem precommand_command {pg : State} {name low : Bytes} {as : List Bytes} (hl : low.map lower = low) (hs : Spells name low)
    (hn : low ∉ ([[98, 101, 103, 105, 110], [114, 111, 108, 108, 98, 97, 99, 107], [99, 111, 109, 109, 105, 116]] : List Bytes)) (h58 : 58 ∉ low) :
    precommand pg (name :: as) = .inr (name :: as, pg) := by
  simp only [List.mem_cons, List.not_mem_nil, or_false, not_or] at hn
  rw [precommand]
  simp only [argeq_spells hl hs]
  rw [if_neg (by simpa using hn.1), if_neg (by simpa using hn.2.1), if_neg (by simpa using hn.2.2), if_neg]
  intro hc
  cases name with
  | nil => simp at hc
  | cons b name =>
    have hb : b = 58 := by
      simp [List.isPrefixOf] at hc
      exact hc.1.symm
    subst hb
    apply h58
    have := (spells_iff _ _ hl).1 hs
    rw [← this]
    exact List.mem_cons.2 (Or.inl (by decide))

/-- A query on an idle connection runs its command. -/
theorem query_runs {other : Fn → Env → List Bytes → Prog (List W)} (hi : Idle x.pg) (ha : Allowed pw x.st) {q : Query} {name low : Bytes} {as : List Bytes} {fn : Fn}
    (hw : Writes q (name :: as)) (hlen : (text q).length + 5 < 2147483648) (hs : Spells name low) (hm : (low, fn) ∈ cmds)
    (hn : low.map lower = low ∧ low ∉ ([[98, 101, 103, 105, 110], [114, 111, 108, 108, 98, 97, 99, 107], [99, 111, 109, 109, 105, 116]] : List Bytes) ∧ 58 ∉ low)
    {p : Prog (List W)} (hcall : call e pw other fn (name :: as) x.st = Prog.map (·, x.st) p) {rest : Bytes}
    (h : Runs env I oom e.now (serve hash c e pw other x (message 81 (queryMsg (text q)) ++ rest)) s (out, n, x') s') :
    ∃ o, Runs env I oom e.now p s o s' ∧ out = o.flatMap (send { x.pg with error := false }) := by
  have hne : q ≠ [] := by rintro rfl; have := hw.words; simp at this
  have hq := query_exact_partial hash pw x.pg hw.valid hne hw.apart hw.noParam
  rw [hw.words] at hq
  rw [serve_some (frame_query rest hlen) hq hi.ready, perform, precommand_command hn.1 hs hn.2.1 hn.2.2] at h
  simp only [] at h
  rw [evcommand_allowed ha hs hm, hcall] at h
  obtain ⟨r, h1, h2⟩ := runs_map h
  obtain ⟨o, h3, h4⟩ := runs_map h1
  subst h4
  exact ⟨o, h3, (Prod.mk.inj h2).1⟩

theorem oid_error (pg : State) (b : Bool) : State.oid { pg with error := b } = pg.oid := rfl

/-- Tables with one column "value". -/
theorem read_table {pg : State} (hi : Idle pg) {names : List Bytes} {rows : List (List Bytes)} {t : Bytes} (h0 : 0 ∉ t) (hn : ∀ n ∈ names, 0 ∉ n) (hl : names.length ≤ 4)
    (hr : ∀ r ∈ rows, r.length = names.length)
    (hf : ∀ b ∈ (W.pg (.desc names) :: (rows.map (fun r => W.pg (.row r)) ++ pgEnd t)).flatMap (send pg), b.length ≤ 2147483648) (rest : Bytes) :
    getAnswer (((W.pg (.desc names) :: (rows.map (fun r => W.pg (.row r)) ++ pgEnd t)).flatMap (send pg)).flatten ++ rest) =
      some (.table (names.map fun n => (n, pg.oid)) rows t, rest) := by
  have hsend : (rows.map fun r => W.pg (.row r)).flatMap (send pg) = rows.map sendRow := by
    clear hf hr
    induction rows with
    | nil => rfl
    | cons r rows ih =>
      rw [List.map_cons, List.flatMap_cons, List.map_cons, ih]
      rfl
  have hall : (W.pg (.desc names) :: (rows.map (fun r => W.pg (.row r)) ++ pgEnd t)).flatMap (send pg) =
      sendDesc pg.oid names :: (rows.map sendRow ++ [sendComplete t, [90, 0, 0, 0, 5, 73]]) := by
    rw [List.flatMap_cons, List.flatMap_append, hsend]
    simp [send, pgEnd, sendReady, hi.execute]
  rw [hall] at hf ⊢
  have := getAnswer_body (body_table (oid_lt pg) hn hl (fun r hr' => ⟨hr r hr', hf _ (List.mem_cons_of_mem _ (List.mem_append_left _ (List.mem_map_of_mem hr')))⟩) h0 (hf _ (by simp)) (hf _ (by simp))) rest
  simpa [List.append_assoc] using this

/-- A tag alone. -/
theorem read_tag {pg : State} (hi : Idle pg) {t : Bytes} (h0 : 0 ∉ t) (hf : ∀ b ∈ (pgEnd t).flatMap (send pg), b.length ≤ 2147483648) (rest : Bytes) :
    getAnswer (((pgEnd t).flatMap (send pg)).flatten ++ rest) = some (.done t, rest) := by
  have hall : (pgEnd t).flatMap (send pg) = [sendComplete t, [90, 0, 0, 0, 5, 73]] := by simp [send, pgEnd, sendReady, hi.execute]
  rw [hall] at hf ⊢
  simpa using getAnswer_body (body_complete h0 (hf _ (by simp))) rest

/-- **C78**, GET.  For all keys and values: the table has one column "value", and one row with exactly the value stored, or none if there is none; nothing is changed. -/
theorem pg_get_exact {other : Fn → Env → List Bytes → Prog (List W)} (hp : e.proto = .postgres) (hi : Idle x.pg) (ha : Allowed pw x.st) {q : Query} {name key : Bytes}
    (hw : Writes q [name, key]) (hs : Spells name getName) (hlen : (text q).length + 5 < 2147483648) {rest : Bytes}
    (h : Runs env I oom e.now (serve hash c e pw other x (message 81 (queryMsg (text q)) ++ rest)) s (out, n, x') s') (hf : ∀ b ∈ out, b.length ≤ 2147483648) (rest' : Bytes) :
    I s s' ∧ getAnswer (out.flatten ++ rest') = some (match s'.dict.get e.now key with
      | some it => .table [(valueCol, x.pg.oid)] [[it.value]] [71, 69, 84, 32, 49]
      | none => .table [(valueCol, x.pg.oid)] [] [71, 69, 84, 32, 48], rest') := by
  obtain ⟨o, hx, rfl⟩ := query_runs hi ha hw hlen hs (by decide : (getName, Fn.cmdGET) ∈ cmds) (by decide) rfl h
  unfold cmdGET at hx
  obtain ⟨s1, rr, s2, h1, h2, h3⟩ := runs_call hx
  rw [if_pos hp] at h3
  obtain ⟨rfl, rfl⟩ := runs_ret h3
  obtain ⟨rfl, ⟨h4, rfl⟩ | ⟨it, h4, rfl⟩⟩ := load_step h2
  · rw [h4]
    rw [if_pos rfl] at hf ⊢
    exact ⟨h1, read_table (hi.error false) (names := [valueCol]) (rows := []) (by decide) (by decide) (by decide) (by simp) hf rest'⟩
  · rw [h4]
    have : ([(key, it)].flatMap (getEntry e .get)) = [[it.value]].map fun r => W.pg (.row r) := by simp [getEntry, hp]
    rw [if_neg (by simp), if_neg (by simp), this] at hf ⊢
    exact ⟨h1, read_table (hi.error false) (names := [valueCol]) (rows := [[it.value]]) (by decide) (by decide) (by decide) (by simp) hf rest'⟩

/-- **C78**, DEL of one key.  The tag says whether there was such a key; it is gone, and no other key changes. -/
theorem pg_del_exact {other : Fn → Env → List Bytes → Prog (List W)} (hp : e.proto = .postgres) (hi : Idle x.pg) (ha : Allowed pw x.st) {q : Query} {name key : Bytes}
    (hw : Writes q [name, key]) (hs : Spells name delName) (hlen : (text q).length + 5 < 2147483648) {rest : Bytes}
    (h : Runs env I oom e.now (serve hash c e pw other x (message 81 (queryMsg (text q)) ++ rest)) s (out, n, x') s') (hf : ∀ b ∈ out, b.length ≤ 2147483648) (rest' : Bytes) :
    ∃ s1, I s s1 ∧
      ((s1.dict.get e.now key = none ∧ s'.dict = s1.dict ∧ getAnswer (out.flatten ++ rest') = some (.done [68, 69, 76, 32, 48], rest')) ∨
       (s1.dict.get e.now key ≠ none ∧ s'.dict = update s1.dict key none ∧ getAnswer (out.flatten ++ rest') = some (.done [68, 69, 76, 32, 49], rest'))) := by
  obtain ⟨o, hx, rfl⟩ := query_runs hi ha hw hlen hs (by decide : (delName, Fn.cmdDEL) ∈ cmds) (by decide) rfl h
  unfold cmdDEL delLoop delLoop at hx
  simp only [hp] at hx
  obtain ⟨s1, rr, s2, h1, h2, h3⟩ := runs_call hx
  obtain ⟨rfl, rfl⟩ := runs_ret h3
  refine ⟨s1, h1, ?_⟩
  cases hg : s1.dict.get e.now key with
  | none =>
    simp [Spec.Step, hg] at h2
    obtain ⟨rfl, rfl⟩ := h2
    exact Or.inl ⟨rfl, rfl, read_tag (hi.error false) (by decide) hf rest'⟩
  | some it =>
    simp [Spec.Step, hg] at h2
    obtain ⟨rfl, rfl⟩ := h2
    exact Or.inr ⟨by simp, rfl, read_tag (hi.error false) (by decide) hf rest'⟩

/-- **C78**, SET without options.  The tag "SET 1" is sent exactly if the value is stored (without deadline and flags); otherwise there was no memory, nothing changed, and an error is sent. -/
theorem pg_set_exact {other : Fn → Env → List Bytes → Prog (List W)} (hp : e.proto = .postgres) (h0 : 0 < e.now) (hi : Idle x.pg) (ha : Allowed pw x.st) {q : Query} {name key val : Bytes}
    (hw : Writes q [name, key, val]) (hs : Spells name setName) (hlen : (text q).length + 5 < 2147483648) {rest : Bytes}
    (h : Runs env I oom e.now (serve hash c e pw other x (message 81 (queryMsg (text q)) ++ rest)) s (out, n, x') s') (hf : ∀ b ∈ out, b.length ≤ 2147483648) (rest' : Bytes) :
    ∃ s1, I s s1 ∧
      (((oom = true ∨ (e.lowmem = true ∧ env.noevict = true)) ∧ s'.dict = s1.dict ∧ ∃ t, getAnswer (out.flatten ++ rest') = some (failedWith t, rest')) ∨
       ((∃ k, Stored e.lowmem key ⟨val, 0, 0, k⟩ s1 s') ∧ getAnswer (out.flatten ++ rest') = some (.done [83, 69, 84, 32, 49], rest'))) := by
  obtain ⟨o, hx, rfl⟩ := query_runs hi ha hw hlen hs (by decide : (setName, Fn.cmdSET) ∈ cmds) (by decide) rfl h
  replace hx : Runs env I oom e.now (execSET e [83, 69, 84] key val (collect [])) s o s' := hx
  unfold execSET at hx
  obtain ⟨s1, rr, s2, h1, h2, h3⟩ := runs_call hx
  obtain ⟨rfl, rfl⟩ := runs_ret h3
  refine ⟨s1, h1, ?_⟩
  rcases set_step (os := []) (by simp [deadlineOf]) (fun it hit => visible_nonneg h0 hit) h2 with ⟨a1, rfl, a3⟩ | ⟨a1, rfl, a3⟩ | ⟨a1, a2, a3, k, a4⟩
  · refine Or.inl ⟨a1, a3, said (ErrMsg.text .outOfMemory), ?_⟩
    have hall : (setReply e [83, 69, 84] (collect []).get ⟨.nomem, []⟩).flatMap (send { x.pg with error := false }) =
        [sendError (said (ErrMsg.text .outOfMemory)), [90, 0, 0, 0, 5, 73]] := by
      simp [setReply, send, writeErr, said, sendReady, hi.execute]
    rw [hall] at hf ⊢
    simpa using getAnswer_body (body_err (nul_text _) (hf _ (by simp))) rest'
  · exact absurd a1 (by cases s1.dict.get e.now key <;> simp [Refused, tokenOf])
  · refine Or.inr ⟨⟨k, ?_⟩, ?_⟩
    · have : newDeadline [] (s1.dict.get e.now key) = 0 := by cases s1.dict.get e.now key <;> rfl
      rw [this] at a4
      exact a4
    · have hall : setReply e [83, 69, 84] (collect []).get rr = pgEnd [83, 69, 84, 32, 49] := by
        rw [setReply, a2, if_neg (by split <;> simp), show (collect []).get = false from rfl, if_neg (by simp)]
        simp only [hp]
        rw [if_pos (by split <;> simp)]
        rfl
      rw [hall] at hf ⊢
      exact read_tag (hi.error false) (by decide) hf rest'

end

end Verif.Pg
