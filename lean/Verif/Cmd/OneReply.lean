import Mathlib.Tactic.Common
import Verif.Cmd.Safe

/-!
C70: a RESP request gets exactly one well-formed reply.
-/

namespace Verif.Cmd

open Verif.Num Verif.Resp Verif.Map Verif.Shard Verif.Cache

/-- The bytes written by one call on a RESP connection, `/repo/src/conn.c:230-410`: appended to the output buffer. -/
def render (buf : Bytes) : W → Bytes
  | .err m => writeError buf m.text
  | .str t => writeString buf t
  | .null => writeNull buf
  | .int i => writeInt buf i
  | .uint n => writeUint buf n
  | .bulk t => writeBulk buf t
  | .arr n => writeArray buf n
  | .raw t => buf ++ t
  | _ => buf

/-- The bytes written by all calls. -/
def renderAll (out : List W) (buf : Bytes) : Bytes := out.foldl render buf

/-- Numbers and lengths fit into their C types (`int64_t`, `uint64_t`, `size_t`). -/
def Fits (out : List W) : Prop :=
  ∀ w ∈ out, match w with
    | .int i => IsI64 i
    | .uint n => n < 2 ^ 64
    | .bulk t => t.length < 2 ^ 64
    | .arr n => n < 2 ^ 64
    | _ => True

/-- Lines to be written contain no control characters. -/
def Printable (out : List W) : Prop :=
  (∀ m, W.err m ∈ out → ∀ b ∈ m.text, 32 ≤ b) ∧ ∀ t, W.str t ∈ out → ∀ b ∈ t, 32 ≤ b

/-- The calls write one value that a client can decode, whatever was written before and whatever follows. -/
def Whole (out : List W) : Prop :=
  ∃ bytes r fuel, (∀ buf, renderAll out buf = buf ++ bytes) ∧ ∀ rest f, fuel ≤ f → decode f (bytes ++ rest) = some (r, rest)

/-! ### Proofs -/

theorem one_val {out : List W} (h : One out) (hf : Fits out) (hp : Printable out) : ∃ v : Val, v.Ok ∧ ∀ buf, renderAll out buf = v.write buf := by
  induction h with
  | @leaf w h =>
    cases w with
    | err m => exact ⟨.error m.text, hp.1 m (by simp), fun _ => rfl⟩
    | str t => exact ⟨.string t, hp.2 t (by simp), fun _ => rfl⟩
    | null => exact ⟨.null, trivial, fun _ => rfl⟩
    | int i => exact ⟨.int i, hf (.int i) (by simp), fun _ => rfl⟩
    | uint n => exact ⟨.uint n, hf (.uint n) (by simp), fun _ => rfl⟩
    | bulk t => exact ⟨.bulk t, hf (.bulk t) (by simp), fun _ => rfl⟩
    | _ => cases h
  | arr outs h ih =>
    have key : ∀ os : List (List W), (∀ o ∈ os, ∃ v : Val, v.Ok ∧ ∀ buf, renderAll o buf = v.write buf) →
        ∃ vs : List Val, vs.length = os.length ∧ Val.AllOk vs ∧ ∀ buf, renderAll os.flatten buf = Val.writeAll buf vs := by
      intro os
      induction os with
      | nil => intro _; exact ⟨[], rfl, trivial, fun _ => rfl⟩
      | cons o os ih =>
        intro h
        obtain ⟨v, h1, h2⟩ := h o (by simp)
        obtain ⟨vs, h3, h4, h5⟩ := ih fun o' ho' => h o' (by simp [ho'])
        refine ⟨v :: vs, by simp [h3], ⟨h1, h4⟩, fun buf => ?_⟩
        simp only [Val.writeAll]
        rw [← h5, ← h2]
        simp [renderAll, List.foldl_append]
    obtain ⟨vs, h1, h2, h3⟩ := key outs fun o ho => ih o ho
      (fun w hw => hf w (List.mem_cons_of_mem _ (List.mem_flatten.2 ⟨o, ho, hw⟩)))
      ⟨fun m hm => hp.1 m (List.mem_cons_of_mem _ (List.mem_flatten.2 ⟨o, ho, hm⟩)),
        fun m hm => hp.2 m (List.mem_cons_of_mem _ (List.mem_flatten.2 ⟨o, ho, hm⟩))⟩
    refine ⟨.array vs, ⟨by rw [h1]; exact hf (.arr _) (by simp), h2⟩, fun buf => ?_⟩
    simp only [Val.write]
    rw [← h3, h1]
    rfl
  | @quiet o w h hw ih =>
    obtain ⟨v, h1, h2⟩ := ih (fun w' hw' => hf w' (List.mem_append.2 (Or.inl hw')))
      ⟨fun m hm => hp.1 m (List.mem_append.2 (Or.inl hm)), fun m hm => hp.2 m (List.mem_append.2 (Or.inl hm))⟩
    refine ⟨v, h1, fun buf => ?_⟩
    rw [← h2]
    unfold renderAll
    rw [List.foldl_append]
    cases w <;> first | rfl | cases hw

theorem one_whole {out : List W} (h : One out) (hf : Fits out) (hp : Printable out) : Whole out := by
  obtain ⟨v, h1, h2⟩ := one_val h hf hp
  exact ⟨v.write [], v.reply, v.size, fun buf => by rw [h2, write_append v h1], fun rest f hfu => decode_write v h1 f hfu rest⟩

theorem mem_take {α : Type} {l : List α} {n : Nat} {P : α → Prop} (h : ∀ b ∈ l, P b) : ∀ b ∈ l.take n, P b :=
  fun b hb => h b (List.mem_of_mem_take hb)

theorem text_printable (m : ErrMsg) (h : ∀ t, m.quotes = some t → ∀ b ∈ t, 32 ≤ b) : ∀ b ∈ m.text, 32 ≤ b := by
  have quoted : ∀ (p t : Bytes) (n : Nat), (∀ b ∈ p, 32 ≤ b) → (∀ b ∈ t, 32 ≤ b) → ∀ b ∈ (p ++ t.takeWhile (· ≠ 0) ++ [39]).take n, 32 ≤ b := by
    intro p t n hp ht
    apply mem_take
    simp only [List.mem_append, List.mem_singleton]
    rintro b ((hb | hb) | rfl)
    · exact hp b hb
    · exact ht b ((List.takeWhile_sublist _).subset hb)
    · decide
  cases m
  case unknownCommand t => exact quoted _ _ _ (by decide) (h t rfl)
  case unknownType t => exact quoted _ _ _ (by decide) (h t rfl)
  all_goals
    simp only [ErrMsg.text]
    decide

/-- **C70** (`_partial`: DEBUG POPULATE and SCAN with a wild cursor, which may crash, and error texts that repeat control characters of the request are excluded).  For all requests on a
RESP connection, in all states and whatever other threads do: what the command writes is exactly one reply, complete and readable by a client, wherever it
lands in the output.  (`Fits`: numbers are those of the C types, strings shorter than 2^64.) -/
theorem one_reply_partial {env : Spec.Env} {I : Spec.State → Spec.State → Prop} {oom : Bool} {y : Sys} {e : Env} (hc : Clocks e) (hp : e.proto = .resp)
    (hb : y.bgwork = true) (hv : ∀ b ∈ y.version, 32 ≤ b) {pw : Bytes} {st st' : ConnSt} {args : List Bytes} (hne : args ≠ [])
    {s s' : Spec.State} {out : List W} (h : Runs env I oom e.now (evcommand e pw (admin y) args st) s (out, st') s') (hf : Fits out) :
    Whole out ∨ IsPopulate args ∨ IsWildScan y args ∨ ∃ m t, W.err m ∈ out ∧ m.quotes = some t ∧ t ∈ args ∧ ∃ b ∈ t, b < 32 := by
  rcases good_evcommand hc hne I s _ s' h with hg | hg
  · by_cases hq : ∃ m t, W.err m ∈ out ∧ m.quotes = some t ∧ t ∈ args ∧ ∃ b ∈ t, b < 32
    · exact Or.inr (Or.inr (Or.inr hq))
    · left
      refine one_whole (hg.one hp hb) hf ⟨fun m hm => text_printable m fun t ht b hb => ?_, fun t ht => ?_⟩
      · by_contra hlt
        exact hq ⟨m, t, hm, ht, hg.errs m hm t ht, b, hb, UInt8.not_le.1 hlt⟩
      · rcases hg.strs t ht with rfl | rfl | rfl
        · decide
        · decide
        · exact hv
  · exact hg.elim (fun h => Or.inr (Or.inl h.1)) fun h => Or.inr (Or.inr (Or.inl h.1))

/-- The replies to a sequence of requests, one after the other in the output: a client that reads replies reads exactly one for each request. -/
theorem pipeline_reads {outs : List (List W)} (h : ∀ o ∈ outs, Whole o) :
    ∃ bytes rs fuel, (∀ buf, renderAll outs.flatten buf = buf ++ bytes) ∧ rs.length = outs.length ∧
      ∀ rest f, fuel ≤ f → decodeN f outs.length (bytes ++ rest) = some (rs, rest) := by
  induction outs with
  | nil => exact ⟨[], [], 0, fun buf => by simp [renderAll], rfl, fun rest f _ => by simp [decodeN]⟩
  | cons o outs ih =>
    obtain ⟨b1, r, f1, h1, h2⟩ := h o (by simp)
    obtain ⟨b2, rs, f2, h3, h4, h5⟩ := ih fun o' ho' => h o' (by simp [ho'])
    refine ⟨b1 ++ b2, r :: rs, f1 + f2 + 1, fun buf => ?_, by simp [h4], fun rest f hf => ?_⟩
    · have := h3 (renderAll o buf)
      unfold renderAll at this ⊢
      rw [List.flatten_cons, List.foldl_append, this]
      have := h1 buf
      unfold renderAll at this
      rw [this, List.append_assoc]
    · obtain ⟨g, rfl⟩ : ∃ g, f = g + 1 := ⟨f - 1, by omega⟩
      rw [List.length_cons, decodeN, List.append_assoc, h2 _ _ (by omega)]
      simp only [Option.bind_some]
      rw [h5 _ _ (by omega)]
      rfl

/-- Hypotheses of `one_reply_partial` and `pipeline_reads`: `MGETS k z`, where `k` exists and `z` does not. -/
example : Clocks (at_ .resp 5) ∧ (∀ b ∈ sys1.version, 32 ≤ b) ∧ Fits [.arr 2, .arr 3, .uint 0, .uint 1, .bulk [120], .null] ∧
    Whole [.arr 2, .arr 3, .uint 0, .uint 1, .bulk [120], .null] ∧ ∃ s s', Runs ⟨true, false, fun _ => 0⟩ busy false 5
      (evcommand (at_ .resp 5) [] (admin sys1) [[77, 71, 69, 84, 83], [107], [122]] ⟨true⟩) s
      ([.arr 2, .arr 3, .uint 0, .uint 1, .bulk [120], .null], ⟨true⟩) s' := by
  have hf : Fits [.arr 2, .arr 3, .uint 0, .uint 1, .bulk [120], .null] := by
    intro w hw
    simp only [List.mem_cons, List.not_mem_nil, or_false] at hw
    rcases hw with rfl | rfl | rfl | rfl | rfl | rfl <;> simp
  refine ⟨by simp only [Clocks, at_, IsI64]; decide, by decide, hf, ?_, st1, st1, ?_⟩
  · have h3 : One [.arr 3, .uint 0, .uint 1, .bulk [120]] :=
      One.arr [[.uint 0], [.uint 1], [.bulk [120]]] (by
        intro o ho
        simp only [List.mem_cons, List.not_mem_nil, or_false] at ho
        rcases ho with rfl | rfl | rfl <;> exact .leaf rfl)
    exact one_whole (One.arr [[.arr 3, .uint 0, .uint 1, .bulk [120]], [.null]] (by
        intro o ho
        simp only [List.mem_cons, List.not_mem_nil, or_false] at ho
        rcases ho with rfl | rfl
        · exact h3
        · exact .leaf rfl)) hf ⟨by simp, by simp⟩
  · rw [evcommand_known (low := [109, 103, 101, 116, 115]) (fn := .cmdMGET) ((spells_iff _ _ (by decide)).2 (by decide)) (by decide)]
    refine .call (s1 := st1) (r := ⟨.found, [([107], ⟨[120], 0, 0, 1⟩)]⟩) (s2 := st1) trivial ?_ ?_
    · unfold Spec.Step
      simp only []
      rw [show st1.dict.get 5 [107] = some ⟨[120], 0, 0, 1⟩ from rfl]
      exact ⟨rfl, trivial⟩
    refine .call (s1 := st1) (r := ⟨.notfound, []⟩) (s2 := st1) trivial ?_ (.ret _ _)
    · unfold Spec.Step
      simp only []
      rw [show st1.dict.get 5 [122] = none from rfl]
      exact ⟨trivial, trivial⟩

/-- **C70, negation.**  Behind another reply in the output, the reply to the unknown command `x CR LF +OK CR LF` is read by the client as an error, then an
"OK" for the next request, then garbage. -/
theorem two_replies (st : ConnSt) (y : Sys) :
    evcommand (at_ .resp 5) [] (admin y) [[120, 13, 10, 43, 79, 75, 13, 10]] st = .ret ([.err (.unknownCommand [120, 13, 10, 43, 79, 75, 13, 10])], st) ∧
    ∃ bytes, renderAll [.str [80, 79, 78, 71], .err (.unknownCommand [120, 13, 10, 43, 79, 75, 13, 10])] [] = renderAll [.str [80, 79, 78, 71]] [] ++ bytes ∧
      decodeN 9 2 bytes = some ([.error (unknownText [120]).dropLast, .simple [79, 75]], [39, 13, 10]) := by
  constructor
  · unfold evcommand
    rw [if_neg (by simp)]
    have : getCmd [120, 13, 10, 43, 79, 75, 13, 10] = some none := by decide +kernel
    simp only [List.headD_cons, this]
  · have hw : renderAll [.str [80, 79, 78, 71], .err (.unknownCommand [120, 13, 10, 43, 79, 75, 13, 10])] [] = renderAll [.str [80, 79, 78, 71]] [] ++
        (Val.writeAll [] [.error (unknownText [120]).dropLast, .string [79, 75]] ++ [39, 13, 10]) := by decide +kernel
    exact ⟨_, hw, decodeN_write [.error (unknownText [120]).dropLast, .string [79, 75]]
      (by simp only [Val.AllOk, Val.Ok]; decide +kernel) 9 (by decide +kernel) [39, 13, 10]⟩

end Verif.Cmd
