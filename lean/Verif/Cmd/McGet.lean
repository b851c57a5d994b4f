import Mathlib.Tactic.Common
import Verif.Cmd.Single
import Verif.Cmd.McStore
import Verif.Resp.Reply

/-!
C67: replies to memcache `get` and `gets`.  C68: memcache `touch`.
-/

namespace Verif.Cmd

open Verif.Num Verif.Resp Verif.Cache Function

/-! ### A memcache client -/

/-- Words of a line, separated by blanks. -/
def wordsOf : Bytes → List Bytes
  | [] => [[]]
  | b :: s =>
    if b = 32 then [] :: wordsOf s
    else
      match wordsOf s with
      | [] => [[b]]
      | w :: ws => (b :: w) :: ws

/-- What a client learns about a key: flags, data and, from `gets`, the CAS token. -/
structure Found where
  key : Bytes
  flags : Nat
  cas : Option Nat
  data : Bytes
deriving DecidableEq

/-- A line `VALUE key flags bytes [cas]`. -/
def valueLine (gets : Bool) (ws : List Bytes) : Option (Bytes × Nat × Nat × Option Nat) :=
  match gets, ws with
  | false, [[86, 65, 76, 85, 69], k, f, n] => (natOf f).bind fun f => (natOf n).map fun n => (k, f, n, none)
  | true, [[86, 65, 76, 85, 69], k, f, n, c] =>
    (natOf f).bind fun f => (natOf n).bind fun n => (natOf c).map fun c => (k, f, n, some c)
  | _, _ => none

/-- A client reads a line; if it is `END` the reply is over (and nothing may follow), otherwise it announces the number of bytes to read next. -/
def clientGet (gets : Bool) : Nat → Bytes → Option (List Found)
  | 0, _ => none
  | fuel + 1, s =>
    (line s).bind fun (l, r) =>
      if l = [69, 78, 68] then (if r = [] then some [] else none)
      else (valueLine gets (wordsOf l)).bind fun (k, f, n, c) =>
        if r.length < n + 2 ∨ (r.drop n).take 2 ≠ [13, 10] then none
        else (clientGet gets fuel (r.drop (n + 2))).map (⟨k, f, c, r.take n⟩ :: ·)

/-- The bytes written by `conn_write_raw` calls. -/
def rawBytes : List W → Option Bytes
  | [] => some []
  | .raw b :: ws => (rawBytes ws).map (b ++ ·)
  | _ => none

/-! ### Lemmas -/

theorem wordsOf_word {w : Bytes} (hw : 32 ∉ w) (s : Bytes) : wordsOf (w ++ 32 :: s) = w :: wordsOf s := by
  induction w with
  | nil => simp [wordsOf]
  | cons b w ih =>
    have hb : b ≠ 32 := by rintro rfl; exact hw (by simp)
    rw [List.cons_append, wordsOf, if_neg hb, ih (fun hc => hw (by simp [hc]))]

theorem wordsOf_last {w : Bytes} (hw : 32 ∉ w) : wordsOf w = [w] := by
  induction w with
  | nil => rfl
  | cons b w ih =>
    have hb : b ≠ 32 := by rintro rfl; exact hw (by simp)
    rw [wordsOf, if_neg hb, ih (fun hc => hw (by simp [hc]))]

theorem digit_bytes (n : Nat) : ∀ b ∈ u64toa n, b ≠ 32 ∧ b ≠ 13 := by
  intro b hb
  have h1 := u64toa_digits n b hb
  unfold isDigit at h1
  simp only [Bool.and_eq_true, decide_eq_true_eq, UInt8.le_iff_toNat_le] at h1
  constructor <;> rintro rfl <;> simp at h1

/-- The block for one item as `get_entry` writes it. -/
def block (gets : Bool) (k : Bytes) (it : Spec.Item) : Bytes :=
  [86, 65, 76, 85, 69, 32] ++ k ++ [32] ++ u64toa it.flags ++ [32] ++ u64toa it.value.length ++
    (if gets then [32] ++ u64toa it.cas else []) ++ [13, 10] ++ it.value ++ [13, 10]

/-- The head of the block. -/
def head (gets : Bool) (k : Bytes) (it : Spec.Item) : Bytes :=
  [86, 65, 76, 85, 69] ++ 32 :: (k ++ 32 :: (u64toa it.flags ++ 32 :: (u64toa it.value.length ++ (if gets then 32 :: u64toa it.cas else []))))

theorem client_block {gets : Bool} {k : Bytes} (hk : Mc.Key k) (it : Spec.Item) (rest : Bytes) (fuel : Nat) :
    clientGet gets (fuel + 1) (block gets k it ++ rest) =
      (clientGet gets fuel rest).map (⟨k, it.flags, if gets then some it.cas else none, it.value⟩ :: ·) := by
  have hk32 : 32 ∉ k := fun hc => by have := hk.2.2 32 hc; simp at this
  have hk13 : ∀ b ∈ k, b ≠ 13 := by rintro b hb rfl; have := hk.2.2 13 hb; simp at this
  have hf := digit_bytes it.flags
  have hl := digit_bytes it.value.length
  have hc := digit_bytes it.cas
  have hb : block gets k it ++ rest = head gets k it ++ 13 :: 10 :: (it.value ++ 13 :: 10 :: rest) := by
    cases gets <;> simp [block, head]
  have h13 : ∀ b ∈ head gets k it, b ≠ 13 := by
    intro b hb
    unfold head at hb
    simp only [List.mem_append, List.mem_cons, List.not_mem_nil, or_false] at hb
    rcases hb with (rfl | rfl | rfl | rfl | rfl) | rfl | hb | rfl | hb | rfl | hb | hb
    any_goals decide
    · exact hk13 b hb
    · exact (hf b hb).2
    · exact (hl b hb).2
    · cases gets
      · simp at hb
      · simp only [if_true, List.mem_cons] at hb
        rcases hb with rfl | hb
        · decide
        · exact (hc b hb).2
  have hw : valueLine gets (wordsOf (head gets k it)) = some (k, it.flags, it.value.length, if gets then some it.cas else none) := by
    unfold head
    rw [wordsOf_word (by decide), wordsOf_word hk32, wordsOf_word (fun h => (hf _ h).1 rfl)]
    cases gets
    · simp only [Bool.false_eq_true, if_false, List.append_nil]
      rw [wordsOf_last (fun h => (hl _ h).1 rfl)]
      simp [valueLine, natOf_u64toa]
    · simp only [if_true]
      rw [wordsOf_word (fun h => (hl _ h).1 rfl), wordsOf_last (fun h => (hc _ h).1 rfl)]
      simp [valueLine, natOf_u64toa]
  rw [hb, clientGet, line_clean h13]
  simp only [Option.bind_some]
  rw [if_neg (by unfold head; simp), hw]
  simp only [Option.bind_some]
  rw [if_neg]
  · have : (it.value ++ 13 :: 10 :: rest).drop (it.value.length + 2) = rest := by
      rw [← List.drop_drop, List.drop_left]; rfl
    rw [this, List.take_left]
  · rw [List.drop_left]
    simp

theorem client_more {gets : Bool} {fuel : Nat} {s : Bytes} {fs : List Found} (h : clientGet gets fuel s = some fs) :
    clientGet gets (fuel + 1) s = some fs := by
  induction fuel generalizing s fs with
  | zero => simp [clientGet] at h
  | succ fuel ih =>
    rw [clientGet] at h ⊢
    cases hl : line s with
    | none => rw [hl] at h; simp at h
    | some lr =>
      rw [hl] at h
      simp only [Option.bind_some] at h ⊢
      split at h
      · rename_i hend
        rw [if_pos hend]; exact h
      · rename_i hend
        rw [if_neg hend]
        cases hv : valueLine gets (wordsOf lr.1) with
        | none => rw [hv] at h; simp at h
        | some v =>
          rw [hv] at h
          simp only [Option.bind_some] at h ⊢
          split at h
          · simp at h
          · rename_i hc
            rw [if_neg hc]
            obtain ⟨fs', h1, h2⟩ := Option.map_eq_some_iff.1 h
            rw [ih h1]
            simpa using h2

/-- A run of MGET or MGETS on a memcache connection. -/
theorem mc_loop {env : Spec.Env} {I : Spec.State → Spec.State → Prop} {oom : Bool} {e : Env} (hp : e.proto = .memcache) (gets : Bool)
    (ks : List Bytes) (out0 : List W) (n : Nat) {s s' : Spec.State} {out : List W}
    (h : Runs env I oom e.now (mgetLoop e (if gets then .mgets else .mget) ks out0 n) s out s') :
    ∃ its : List (Option Spec.Item), Each (fun k s it s' => I s s' ∧ it = s'.dict.get e.now k) ks s its s' ∧
      out = out0 ++ (ks.zip its).filterMap (fun x => x.2.map fun it => W.raw (block gets x.1 it)) ++ [.raw [69, 78, 68, 13, 10]] := by
  induction ks generalizing out0 n s with
  | nil =>
    unfold mgetLoop at h
    obtain ⟨h1, rfl⟩ := runs_ret h
    rw [if_pos hp] at h1
    exact ⟨[], .nil _, by simpa using h1⟩
  | cons k ks ih =>
    unfold mgetLoop at h
    obtain ⟨s1, r, s2, h1, h2, h3⟩ := runs_call h
    obtain ⟨rfl, h4⟩ := load_step h2
    have hadd : (if r.status = .notfound then (if e.proto = .resp then [W.null] else [])
        else r.shown.flatMap (getEntry e (if gets then .mgets else .mget))) =
        ([(k, s2.dict.get e.now k)] : List (Bytes × Option Spec.Item)).filterMap (fun x => x.2.map fun it => W.raw (block gets x.1 it)) := by
      rcases h4 with ⟨h4, rfl⟩ | ⟨it, h4, rfl⟩
      · rw [if_pos rfl, if_neg (by rw [hp]; decide), h4]; rfl
      · rw [if_neg (by simp), h4]
        cases gets <;> simp [getEntry, hp, block]
    rw [hadd] at h3
    obtain ⟨its, h5, h6⟩ := ih _ _ h3
    refine ⟨_ :: its, .cons ⟨h1, rfl⟩ h5, ?_⟩
    rw [h6]
    simp only [List.zip_cons_cons, List.append_assoc]
    congr 1
    rw [← List.append_assoc]
    congr 1
    rw [← List.filterMap_append]
    rfl

variable {env : Spec.Env} {I : Spec.State → Spec.State → Prop} {oom : Bool} {e : Env} {pw : Bytes}
  {other : Fn → Env → List Bytes → Prog (List W)}

/-- The command that the memcache parser makes of `get` and `gets` (`Verif.Mc.Line`). -/
def mcGetName (gets : Bool) : Bytes := if gets = true then [109, 103, 101, 116, 115] else [109, 103, 101, 116]

/-- **C67.**  For all lists of keys, all contents of the cache (any bytes, any flags) and whatever other threads do in between: a memcache client that
reads the reply to `get` or `gets` finds exactly the keys that exist, each at the moment of its turn, in the order of the request, with their
flags, data and (for `gets`) CAS token, and then the end of the reply. -/
theorem mc_get_exact {gets : Bool} {ks : List Bytes} {s s' : Spec.State} {out : List W} (hp : e.proto = .memcache)
    (hk : ∀ k ∈ ks, Mc.Key k) (hks : ks ≠ []) (h : Executes env I oom e pw other (mcGetName gets :: ks) s out s') :
    ∃ its : List (Option Spec.Item), Each (fun k s it s' => I s s' ∧ it = s'.dict.get e.now k) ks s its s' ∧
      ∃ bytes, rawBytes out = some bytes ∧
        clientGet gets (ks.length + 1) bytes = some ((ks.zip its).filterMap fun x => x.2.map fun it =>
          ⟨x.1, it.flags, if gets then some it.cas else none, it.value⟩) := by
  have hmem : (mcGetName gets, Fn.cmdMGET) ∈ cmds := by cases gets <;> decide
  rw [executes_iff spells_self hmem rfl] at h
  cases ks with
  | nil => exact absurd rfl hks
  | cons k0 ks0 =>
    have hkind : (if argeq (mcGetName gets) [109, 103, 101, 116, 115] then Kind.mgets else Kind.mget) = if gets then .mgets else .mget := by
      cases gets <;> rfl
    unfold cmdMGET at h
    have hr : ¬ e.proto = .resp := by rw [hp]; decide
    have hq : ¬ e.proto = .postgres := by rw [hp]; decide
    simp only [hkind, if_neg hr, if_neg hq] at h
    obtain ⟨its, h1, h2⟩ := mc_loop hp gets _ _ _ h
    refine ⟨its, h1, ?_⟩
    rw [List.nil_append] at h2
    subst h2
    generalize hK : k0 :: ks0 = K at *
    clear h h1 hks hK hmem
    induction K generalizing its with
    | nil => exact ⟨[69, 78, 68, 13, 10], rfl, by cases gets <;> rfl⟩
    | cons k K ih =>
      cases its with
      | nil =>
        refine ⟨[69, 78, 68, 13, 10], rfl, ?_⟩
        cases gets <;> rfl
      | cons it its =>
        obtain ⟨bytes, h3, h4⟩ := ih its (fun k hk' => hk k (by simp [hk']))
        cases it with
        | none =>
          refine ⟨bytes, h3, ?_⟩
          simp only [List.zip_cons_cons, List.filterMap_cons, Option.map_none]
          exact client_more h4
        | some it =>
          refine ⟨block gets k it ++ bytes, ?_, ?_⟩
          · simp only [List.zip_cons_cons, List.filterMap_cons, Option.map_some, List.cons_append, rawBytes]
            rw [h3]; rfl
          · rw [List.length_cons, client_block (hk k (by simp)), h4]
            rfl

/-- `set k` with flags 7 and data CR LF, then `gets j k`. -/
example : (∃ s s', Executes ⟨true, false, shardIdx ctx4 4⟩ alone false (at_ .memcache 1000) [] noOther
    [mcGetName true, [106], [107]] s [.raw [86, 65, 76, 85, 69, 32, 107, 32, 55, 32, 50, 32, 50, 13, 10, 13, 10, 13, 10], .raw [69, 78, 68, 13, 10]] s') ∧
    (∀ k ∈ ([[106], [107]] : List Bytes), Mc.Key k) ∧
    clientGet true 3 [86, 65, 76, 85, 69, 32, 107, 32, 55, 32, 50, 32, 50, 13, 10, 13, 10, 13, 10, 69, 78, 68, 13, 10] =
      some [⟨[107], 7, some 2, [13, 10]⟩] := by
  refine ⟨last_executes ctx4_valid (by decide : 0 < 4) [(at_ .memcache 1000, [setName, [107], [13, 10], [102, 108, 97, 103, 115], [55]])]
    (at_ .memcache 1000, [mcGetName true, [106], [107]]) (by simp only [at_, IsI64]; decide) (by simp) (by decide +kernel), ?_, by decide +kernel⟩
  unfold Mc.Key; decide

/-! ### Touch -/

def touchedLine : Bytes := [84, 79, 85, 67, 72, 69, 68, 13, 10]
def notFoundLine : Bytes := [78, 79, 84, 95, 70, 79, 85, 78, 68, 13, 10]

/-- **C68** (`_partial`: only for 1 second to 30 days; see `mc_touch_zero_removes` and `mc_touch_absolute` for the rest).  Memcache
`touch key exptime` (which reaches the commands as EXPIRE, `Verif.Mc.Line`): value and flags stay, the deadline is the one that `set` with
this exptime gives (`mcDeadline`), nothing else changes, and the reply tells whether the key exists. -/
theorem mc_touch_exact_partial {key t : Bytes} {x : Int} {s s' : Spec.State} {out : List W} (hp : e.proto = .memcache) (hnow : IsI64 e.now)
    (h0 : 0 < e.now) (ht : Mc.ExpText t x) (hx : 0 < x) (hx30 : x ≤ 2592000)
    (h : Executes env I oom e pw other [expireName, key, t] s out s') :
    ∃ s1 d, I s s1 ∧ mcDeadline e.now e.unix x = some d ∧
      (s1.dict.get e.now key = none → out = [.raw notFoundLine] ∧ s' = s1) ∧
      ∀ it, s1.dict.get e.now key = some it →
        (out = [.raw touchedLine] ∧ ∃ c, Put key ⟨it.value, d, it.flags, c⟩ s1 s') ∨
        (oom = true ∧ out = [.raw notFoundLine] ∧ s'.dict = s1.dict) := by
  have hi : IsI64 x := by unfold IsI64; omega
  rw [executes_iff spells_self (by decide : (_, Fn.cmdEXPIRE) ∈ cmds) rfl] at h
  unfold cmdEXPIRE at h
  simp only [ht.i64 hi] at h
  rw [show second = 1000000000 from rfl, deadline_eq hnow h0 (by decide) (by unfold IsI64; decide) hi (by omega)] at h
  simp only [] at h
  obtain ⟨s1, r, s2, h1, h2, h3⟩ := runs_call h
  rw [if_pos hp] at h3
  obtain ⟨h4, rfl⟩ := runs_ret h3
  refine ⟨s1, fromNow e.now x 1000000000, h1, ?_, ?_, ?_⟩
  · unfold mcDeadline
    rw [if_neg (by omega), if_neg (by omega), if_pos (by omega)]
  · intro hg
    simp [Spec.Step, hg] at h2
    obtain ⟨rfl, rfl⟩ := h2
    exact ⟨by rw [h4]; rfl, rfl⟩
  · intro it hg
    have hpos : 0 < fromNow e.now x 1000000000 := by
      unfold fromNow lastTime; omega
    have hnorm : Spec.normExp (fromNow e.now x 1000000000) = fromNow e.now x 1000000000 := by
      unfold Spec.normExp; rw [if_pos hpos]
    simp only [Spec.Step, hg] at h2
    rcases h2 with ⟨rfl, rfl⟩ | ⟨ho, rfl, rfl⟩
    · left
      rw [hnorm] at *
      exact ⟨by rw [h4]; rfl, _, update_self _ _ _, fun k hk => update_of_ne hk _ _⟩
    · right
      exact ⟨ho, by rw [h4]; rfl, rfl⟩

/-- **C68 is false of the code** for exptime 0, which means "never" in memcache: `touch k 0` on a permanent key removes it. -/
theorem mc_touch_zero_removes :
    mcDeadline 1000 (10 ^ 18 + 1000) 0 = none ∧
    replies ctx4 4 [(at_ .memcache 1000, [setName, [107], [97]]), (at_ .memcache 1000, [expireName, [107], [48]]),
      (at_ .memcache 1000, [mcGetName false, [107]])] =
    some [[.raw storedLine], [.raw touchedLine], [.raw [69, 78, 68, 13, 10]]] := by
  constructor
  · decide
  · decide +kernel

/-- **C68 is false of the code** for Unix times (more than 30 days): 10^9 seconds after 1970, `touch k 1000000001` asks for one more second, but the
key is still there after a million seconds. -/
theorem mc_touch_absolute :
    mcDeadline 1000 (10 ^ 18 + 1000) 1000000001 = some 1000000000 ∧
    replies ctx4 4 [(at_ .memcache 1000, [setName, [107], [97]]), (at_ .memcache 1000, [expireName, [107], [49, 48, 48, 48, 48, 48, 48, 48, 48, 49]]),
      (at_ .memcache 1000000000000000, [mcGetName false, [107]])] =
    some [[.raw storedLine], [.raw touchedLine],
      [.raw [86, 65, 76, 85, 69, 32, 107, 32, 48, 32, 49, 13, 10, 97, 13, 10], .raw [69, 78, 68, 13, 10]]] := by
  constructor
  · decide
  · decide +kernel

/-- `set k a`, then `touch k 25`. -/
example : (∃ s s', Executes ⟨true, false, shardIdx ctx4 4⟩ alone false (at_ .memcache 1000) [] noOther
    [expireName, [107], [50, 53]] s [.raw touchedLine] s') ∧ Mc.ExpText [50, 53] 25 := by
  refine ⟨last_executes ctx4_valid (by decide : 0 < 4) [(at_ .memcache 1000, [setName, [107], [97]])]
    (at_ .memcache 1000, [expireName, [107], [50, 53]]) (by simp only [at_, IsI64]; decide) (by simp) (by decide +kernel), ?_⟩
  exact Or.inl ⟨25, by unfold Mc.NatText; decide, rfl, by decide⟩

end Verif.Cmd
