import Mathlib.Tactic.Common
import Verif.Many.Parts

/-!
C101: any number of RESP clients at once, from the bytes received to the bytes sent.
-/

namespace Verif.Many

open Verif.Num Verif.Resp Verif.Cmd Verif.Cache Verif.Shard Verif.Map Verif.Wire Function

/-! ### The next command -/

theorem parse_spec {cs : List (List Bytes)} {ws : List Bytes} (h : List.Forall₂ (Framed parseCommandResp) cs ws) (packet : Bytes)
    (hp : packet <+: ws.flatten) :
    (∃ args cs' w ws' rest, cs = args :: cs' ∧ ws = w :: ws' ∧ packet = w ++ rest ∧
      (if packet = [] then PR.more else parseCommandResp packet) = .got (args, w.length)) ∨
    ((if packet = [] then PR.more else parseCommandResp packet) = .more ∧ ((ws = [] ∧ packet = []) ∨ ∃ w ws', ws = w :: ws' ∧ packet <+: w ∧ packet ≠ w)) := by
  cases h with
  | nil =>
    right
    have hnil : packet = [] := List.prefix_nil.1 hp
    exact ⟨if_pos hnil, Or.inl ⟨rfl, hnil⟩⟩
  | @cons args w cs' ws' h1 _ =>
    obtain ⟨g1, g2, g3⟩ := h1
    rw [List.flatten_cons] at hp
    by_cases hl : w.length ≤ packet.length
    · obtain ⟨rest, hrest⟩ := List.prefix_of_prefix_length_le (List.prefix_append w ws'.flatten) hp hl
      left
      refine ⟨args, cs', w, ws', rest, rfl, rfl, hrest.symm, ?_⟩
      rw [if_neg (by rw [← hrest]; simp [g1]), ← hrest, g2]
    · right
      have hpw : packet <+: w := List.prefix_of_prefix_length_le hp (List.prefix_append w ws'.flatten) (by omega)
      have hne : packet ≠ w := by rintro rfl; omega
      refine ⟨?_, Or.inr ⟨w, ws', rfl, hpw, hne⟩⟩
      split
      · rfl
      · exact g3 _ hpw hne ‹_›

theorem fetch_spec {cs : List (List Bytes)} {ws : List Bytes} (h : List.Forall₂ (Framed parseCommandResp) cs ws) (chunks : List Bytes) (packet : Bytes)
    (hp : packet ++ chunks.flatten <+: ws.flatten) :
    (fetch chunks packet = none ∧ ((ws = [] ∧ packet ++ chunks.flatten = []) ∨
      ∃ w ws', ws = w :: ws' ∧ packet ++ chunks.flatten <+: w ∧ packet ++ chunks.flatten ≠ w)) ∨
    ∃ args cs' w ws' packet' chunks', cs = args :: cs' ∧ ws = w :: ws' ∧ fetch chunks packet = some (args, packet', chunks') ∧
      packet ++ chunks.flatten = w ++ (packet' ++ chunks'.flatten) := by
  induction chunks generalizing packet with
  | nil =>
    rcases parse_spec h packet ((List.prefix_append packet _).trans hp) with ⟨args, cs', w, ws', rest, rfl, rfl, rfl, h5⟩ | ⟨h5, h6⟩
    · right
      refine ⟨args, cs', w, ws', rest, [], rfl, rfl, ?_, by simp⟩
      rw [fetch, h5]
      simp
    · left
      refine ⟨by rw [fetch, h5], ?_⟩
      simpa using h6
  | cons c chunks ih =>
    rcases parse_spec h packet ((List.prefix_append packet _).trans hp) with ⟨args, cs', w, ws', rest, rfl, rfl, rfl, h5⟩ | ⟨h5, _⟩
    · right
      refine ⟨args, cs', w, ws', rest, c :: chunks, rfl, rfl, ?_, by simp⟩
      rw [fetch, h5]
      simp
    · have e1 : packet ++ (c :: chunks).flatten = (packet ++ c) ++ chunks.flatten := by simp
      have e2 : fetch (c :: chunks) packet = fetch chunks (packet ++ c) := by rw [fetch, h5]
      rw [e1] at hp ⊢
      rw [e2]
      exact ih _ hp

theorem forall₂_at {α β : Type} {R : α → β → Prop} {as : List α} {bs : List β} (h : List.Forall₂ R as bs) {k : Nat} {b : β} (hb : bs[k]? = some b) :
    ∃ a, as[k]? = some a ∧ R a b := by
  induction h generalizing k with
  | nil => simp at hb
  | @cons a b' _ _ h1 _ ih =>
    cases k with
    | zero =>
      simp at hb
      subst hb
      exact ⟨a, rfl, h1⟩
    | succ k => exact ih (by simpa using hb)

/-- A connection between two commands: idle, or about to execute the next command. -/
def Fresh (pw : Bytes) (y : Sys) (clock : Nat → Env) (cs : List (List Bytes)) (ws : List Bytes) (data : Bytes) (l : Loc) : Prop :=
  l.job = .val none ∨ ∃ args, cs[l.done]? = some args ∧ l.job = .val (some ⟨batched args, false, evcommand (clock l.done) pw (admin y) args ⟨true⟩⟩) ∧
    l.done + 1 ≤ ws.length ∧ data = (ws.take (l.done + 1)).flatten ++ (l.packet ++ l.chunks.flatten)

theorem advance_spec {pw : Bytes} {y : Sys} {clock : Nat → Env} {as : List Ask} {cs : List (List Bytes)} {ws : List Bytes} (hw : List.Forall₂ Words as cs)
    (he : List.Forall₂ Enc cs ws) {data : Bytes} (hd : data <+: ws.flatten) {l : Loc} (hk : l.done ≤ ws.length)
    (hl : data = (ws.take l.done).flatten ++ (l.packet ++ l.chunks.flatten)) :
    (advance pw y clock l).sent = l.sent ∧ (advance pw y clock l).done = l.done ∧ Fresh pw y clock cs ws data (advance pw y clock l) ∧
      ((advance pw y clock l).job = .val none → ∃ tail, Received ws data l.done tail) := by
  have hf : List.Forall₂ (Framed parseCommandResp) (cs.drop l.done) (ws.drop l.done) := List.forall₂_drop _ (he.imp fun _ _ h => enc_framed h)
  have hp : l.packet ++ l.chunks.flatten <+: (ws.drop l.done).flatten := by
    rw [hl] at hd
    have : ws.flatten = (ws.take l.done).flatten ++ (ws.drop l.done).flatten := by rw [← List.flatten_append, List.take_append_drop]
    rw [this] at hd
    exact (List.prefix_append_right_inj _).1 hd
  rcases fetch_spec hf l.chunks l.packet hp with ⟨h1, h2⟩ | ⟨args, cs', w, ws', packet', chunks', h1, h2, h3, h4⟩
  · have e : advance pw y clock l = { l with job := .val none } := by unfold advance; rw [h1]
    rw [e]
    refine ⟨rfl, rfl, Or.inl rfl, fun _ => ⟨l.packet ++ l.chunks.flatten, hl, hk, ?_⟩⟩
    rcases h2 with ⟨h2, h3⟩ | ⟨w, ws', h2, h3, h4⟩
    · left
      have := congrArg List.length h2
      simp at this
      exact ⟨by omega, h3⟩
    · right
      refine ⟨w, ?_, h3, h4⟩
      have := congrArg (fun x => x[0]?) h2
      simpa using this
  · have h5 : cs[l.done]? = some args := by
      have := congrArg (fun x => x[0]?) h1
      simpa using this
    have h6 : ws[l.done]? = some w := by
      have := congrArg (fun x => x[0]?) h2
      simpa using this
    obtain ⟨a, _, h7⟩ := forall₂_at hw h5
    obtain ⟨_, _, _, hne⟩ := words_program h7 (clock l.done) pw y
    have e : advance pw y clock l =
        { l with chunks := chunks', packet := packet', job := .val (some ⟨batched args, false, evcommand (clock l.done) pw (admin y) args ⟨true⟩⟩) } := by
      unfold advance
      rw [h3]
      simp only [if_neg hne]
    rw [e]
    refine ⟨rfl, rfl, Or.inr ⟨args, h5, rfl, ?_, ?_⟩, fun hc => by cases hc⟩
    · have := (List.getElem?_eq_some_iff.1 h6).1
      show l.done + 1 ≤ ws.length
      omega
    · simp only []
      rw [hl, h4, List.take_add_one, h6]
      simp

/-! ### One command -/

/-- A connection when its thread has no locks: idle, or about to execute the rest of the next command. -/
def ConnOk (cs : List (List Bytes)) (ws : List Bytes) (data : Bytes) (l : Loc) : Prop :=
  l.job = .val none ∨ ∃ args P, cs[l.done]? = some args ∧ l.job = .val (some ⟨batched args, false, P⟩) ∧ Shape (batched args) P ∧
    l.done + 1 ≤ ws.length ∧ data = (ws.take (l.done + 1)).flatten ++ (l.packet ++ l.chunks.flatten)

/-- What is still done before the locks are given back. -/
def rest {α : Type} (own used : Bool) (p : Prog α) : Prog (Prog α) := if own = false ∧ used = true then .ret p else cut own p

theorem shape_call {α : Type} {own : Bool} {op : Spec.Call} {k : Spec.Reply → Prog α} (h : Shape own (.call op k)) (r : Spec.Reply) : Shape own (k r) := by
  refine ⟨h.1.2 r, fun ho => ?_⟩
  obtain ⟨key, h1, h2, h3⟩ := h.2 ho
  refine ⟨key, h1.2 r, h2.2 r, ?_⟩
  rcases h3 with h3 | h3
  · obtain ⟨a, ha⟩ := h3 r
    rw [ha]
    trivial
  · exact h3.2 r

theorem exec_onShard {c : Ctx} {n : Nat} {now : Int} {op : Spec.Call} {key : Bytes} (h : callKey op = some key) (i : Nat) (shs : Shards) :
    Cache.exec c n (full i) now (toOp op) shs = (onShard c now (toOp op) (shs (shardIdx c n key))).bind fun r =>
      .val ⟨update shs (shardIdx c n key) r.sh, r.status, r.evs, r.seen⟩ := by
  cases op <;> simp only [callKey, Option.some.injEq, reduceCtorEq] at h <;> subst h <;> rfl

variable {c : Ctx} {n : Nat} {pw : Bytes} {y : Sys} {clock : Nat → Nat → Env} {addr : Nat → Nat}

theorem act_access {l : Nat × Loc} {own : Bool} {i : Nat} {f : Sh → (Nat × Loc) × Sh} (h : (server c n pw y clock addr).act l = .access own i f) :
    ∃ used op k key, l.2.job = .val (some ⟨own, used, .call op k⟩) ∧ ¬ (own = false ∧ used = true) ∧ callKey op = some key ∧ i = shardIdx c n key ∧
      ∀ sh, f sh = match onShard c (clock l.1 l.2.done).now (toOp op) sh with
        | .val r => ((l.1, { l.2 with job := .val (some ⟨own, true, k ⟨toStatus r.status, r.seen.map kv⟩⟩) }), r.sh)
        | bad => ((l.1, { l.2 with job := bad.bind fun _ => .val none }), sh) := by
  obtain ⟨t, l⟩ := l
  simp only [server] at h
  cases hs : step c n pw y (clock t) l with
  | access own' i' f' =>
    rw [hs] at h
    simp only [Conc.Act.access.injEq] at h
    obtain ⟨rfl, rfl, rfl⟩ := h
    unfold step at hs
    split at hs
    · dsimp only at hs
      split at hs <;> cases hs
    · rename_i own used op k hj
      split at hs
      · cases hs
      · rename_i hu
        split at hs
        · cases hs
        · rename_i key hk
          simp only [Conc.Act.access.injEq] at hs
          obtain ⟨rfl, rfl, rfl⟩ := hs
          refine ⟨used, op, k, key, hj, hu, hk, rfl, fun sh => ?_⟩
          dsimp only
          cases onShard c (clock t l.done).now (toOp op) sh <;> rfl
    · cases hs
  | unlock i l' => rw [hs] at h; cases h
  | commit l' => rw [hs] at h; cases h
  | done => rw [hs] at h; cases h

theorem act_commit {l l' : Nat × Loc} (h : (server c n pw y clock addr).act l = .commit l') :
    (∃ own used out st, l.2.job = .val (some ⟨own, used, .ret (out, st)⟩) ∧
      l' = (l.1, if W.close ∈ out then { l.2 with sent := renderAll out l.2.sent, done := l.2.done + 1, job := .val none }
        else advance pw y (clock l.1) { l.2 with sent := renderAll out l.2.sent, done := l.2.done + 1 })) ∨
    ∃ op k, l.2.job = .val (some ⟨false, true, .call op k⟩) ∧ l' = (l.1, { l.2 with job := .val (some ⟨false, false, .call op k⟩) }) := by
  obtain ⟨t, l⟩ := l
  simp only [server] at h
  cases hs : step c n pw y (clock t) l with
  | access own' i' f' => rw [hs] at h; cases h
  | unlock i l' => rw [hs] at h; cases h
  | commit l'' =>
    rw [hs] at h
    simp only [Conc.Act.commit.injEq] at h
    subst h
    unfold step at hs
    split at hs
    · rename_i own used out st hj
      left
      refine ⟨own, used, out, st, hj, ?_⟩
      dsimp only at hs ⊢
      split at hs
      · rename_i hcl
        cases hs
        rw [if_pos hcl]
      · rename_i hcl
        cases hs
        rw [if_neg hcl]
    · rename_i own used op k hj
      split at hs
      · rename_i hu
        obtain ⟨rfl, rfl⟩ := hu
        cases hs
        exact Or.inr ⟨op, k, hj, rfl⟩
      · split at hs <;> cases hs
    · cases hs
  | done => rw [hs] at h; cases h

theorem no_unlock : Conc.NoUnlock (server c n pw y clock addr) := by
  rintro ⟨t, l⟩ i l' h
  simp only [server] at h
  cases hs : step c n pw y (clock t) l with
  | access own' i' f' => rw [hs] at h; cases h
  | unlock i l' =>
    unfold step at hs
    split at hs
    · dsimp only at hs
      split at hs <;> cases hs
    · split at hs
      · cases hs
      · split at hs <;> cases hs
    · cases hs
  | commit l' => rw [hs] at h; cases h
  | done => rw [hs] at h; cases h

theorem run_idle {H : Nat → Prop} {l l1 : Nat × Loc} {m m1 : Shards} (hj : l.2.job = .val none) (h : Conc.Run (server c n pw y clock addr) H l m l1 m1) :
    l1 = l ∧ m1 = m := by
  induction h with
  | refl => exact ⟨rfl, rfl⟩
  | access _ _ ha ih =>
    obtain ⟨rfl, rfl⟩ := ih
    obtain ⟨_, _, _, _, h1, _⟩ := act_access ha
    rw [hj] at h1
    cases h1

/-- The part of a command done so far. -/
theorem run_part (hv : c.Valid) (hn : 0 < n) {t : Nat} {l : Loc} (hf : Fine (clock t l.done)) {H : Nat → Prop} {m m1 : Shards} {l1 : Nat × Loc} {own : Bool}
    {P : Prog (List W × ConnSt)} (hj : l.job = .val (some ⟨own, false, P⟩)) (hs : Shape own P) (hA : AllInv c n m)
    (h : Conc.Run (server c n pw y clock addr) H (t, l) m l1 m1) :
    AllInv c n m1 ∧ (NoWrap n m1 → NoWrap n m) ∧ l1 = (t, { l with job := l1.2.job }) ∧
      ((∃ used Q i, l1.2.job = .val (some ⟨own, used, Q⟩) ∧ Shape own Q ∧
        (cut own P).exec c n full (clock t l.done).now 0 m = (rest own used Q).exec c n full (clock t l.done).now i m1) ∨ l1.2.job = .abort true) := by
  induction h with
  | refl => exact ⟨hA, id, rfl, Or.inl ⟨false, P, 0, hj, hs, by rw [rest, if_neg (by simp)]⟩⟩
  | @access l1 m1 own' i f _ _ ha ih =>
    obtain ⟨ih1, ih2, ih3, ih4⟩ := ih
    obtain ⟨used, op, k, key, h1, h2, h3, rfl, h5⟩ := act_access ha
    rcases ih4 with ⟨used', Q, i, g1, g3, g4⟩ | g1
    swap
    · rw [h1] at g1; cases g1
    rw [h1] at g1
    simp only [Out.val.injEq, Option.some.injEq, Job.mk.injEq] at g1
    obtain ⟨rfl, rfl, rfl⟩ := g1
    have hd : (clock l1.1 l1.2.done).now = (clock t l.done).now := by rw [ih3]
    rw [h5, hd]
    have href := call_exact hv hn i hf.2.1 hf.2.2.1 g3.1.1 h3 ih1
    rw [exec_onShard h3] at href
    cases hx : onShard c (clock t l.done).now (toOp op) (m1 (shardIdx c n key)) with
    | val r =>
      rw [hx] at href
      rcases href with ⟨r', hr, hA', hw⟩ | hab
      · simp only [Out.bind, Out.val.injEq] at hr
        subst hr
        refine ⟨hA', fun hnw => ih2 (hw hnw).1, ?_, Or.inl ⟨true, _, i + 1, rfl, shape_call g3 _, ?_⟩⟩
        · simp only []
          rw [ih3]
        · rw [g4, rest, if_neg h2, rest]
          cases own' with
          | true =>
            rw [if_neg (by simp)]
            rw [cut, Prog.map, Prog.exec, exec_onShard h3, hx]
            rfl
          | false =>
            rw [if_pos ⟨rfl, rfl⟩]
            conv_lhs => rw [cut, Prog.exec, exec_onShard h3, hx]
            rfl
      · cases hab
    | hang => rw [hx] at href; rcases href with ⟨_, hr, _⟩ | hr <;> cases hr
    | ub => rw [hx] at href; rcases href with ⟨_, hr, _⟩ | hr <;> cases hr
    | abort b =>
      rw [hx] at href
      rcases href with ⟨_, hr, _⟩ | hr
      · cases hr
      · simp only [Out.bind, Out.abort.injEq] at hr
        subst hr
        have e : update m1 (shardIdx c n key) (m1 (shardIdx c n key)) = m1 := update_eq_self _ _
        simp only [e]
        refine ⟨ih1, ih2, ?_, Or.inr rfl⟩
        rw [ih3]

/-! ### Commands one after the other -/

theorem decodeN_snoc {n f : Nat} {s mid rest : Bytes} {rs : List Reply} {r : Reply} (h : decodeN f n s = some (rs, mid)) (hf : n < f)
    (hr : decode (f - n) mid = some (r, rest)) : decodeN f (n + 1) s = some (rs ++ [r], rest) := by
  induction n generalizing f s rs with
  | zero =>
    obtain ⟨g, rfl⟩ : ∃ g, f = g + 1 := ⟨f - 1, by omega⟩
    simp only [decodeN, Option.some.injEq, Prod.mk.injEq] at h
    obtain ⟨rfl, rfl⟩ := h
    rw [decodeN]
    rw [Nat.sub_zero] at hr
    rw [hr]
    simp [decodeN]
  | succ n ih =>
    obtain ⟨g, rfl⟩ : ∃ g, f = g + 1 := ⟨f - 1, by omega⟩
    rw [decodeN, Option.bind_eq_some_iff] at h
    obtain ⟨⟨x, s'⟩, h1, h2⟩ := h
    rw [Option.map_eq_some_iff] at h2
    obtain ⟨⟨xs, s''⟩, h3, h4⟩ := h2
    simp only [Prod.mk.injEq] at h4
    obtain ⟨rfl, rfl⟩ := h4
    rw [decodeN, h1, Option.bind_some]
    simp only []
    rw [ih h3 (by omega) (by rw [← hr]; congr 1; omega)]
    simp

theorem reads_snoc {out : List W} {r : Reply} {rs : List Reply} {bytes : Bytes} (h : Answers out r) (h' : Reads bytes rs) :
    Reads (renderAll out bytes) (rs ++ [r]) := by
  obtain ⟨b, f1, h1, h2⟩ := h
  obtain ⟨f2, h3⟩ := h'
  rw [h1]
  refine ⟨f1 + f2 + rs.length + 1, fun rest f hf => ?_⟩
  rw [List.append_assoc, List.length_append, List.length_singleton]
  exact decodeN_snoc (h3 (b ++ rest) f (by omega)) (by omega) (h2 _ _ (by omega))

/-- The clients: what they ask, how it is written and encoded, and the packets in which it comes. -/
structure Clients (asks : Nat → List Ask) (chunks : Nat → List Bytes) (cs : Nat → List (List Bytes)) (ws : Nat → List Bytes) : Prop where
  words : ∀ t, List.Forall₂ Words (asks t) (cs t)
  enc : ∀ t, List.Forall₂ Enc (cs t) (ws t)
  come : ∀ t, (chunks t).flatten <+: (ws t).flatten

theorem agrees_ofDict {d : Spec.Dict} (hs : ∀ k it, d k = some it → it.value.length ≤ longest ∧ it.expires < 2 ^ 63) (now : Int) :
    Agrees now d (ofDict d) := by
  refine ⟨fun _ => rfl, fun k x hx => ?_⟩
  unfold Store.see ofDict at hx
  rw [Option.filter_eq_some_iff, Option.map_eq_some_iff] at hx
  obtain ⟨⟨it, h5, rfl⟩, _⟩ := hx
  refine ⟨(hs k it h5).1, fun d hd => ?_⟩
  unfold kept at hd
  simp only [] at hd
  split at hd
  · cases hd
  · cases hd
    exact (hs k it h5).2

section

variable {asks : Nat → List Ask} {chunks : Nat → List Bytes} {cs : Nat → List (List Bytes)} {ws : Nat → List Bytes}

/-- What is known of a command. -/
theorem job_facts (hcl : Clients asks chunks cs ws) {t : Nat} {args : List Bytes} {k : Nat} (h : (cs t)[k]? = some args) :
    ∃ a, (asks t)[k]? = some a ∧ Words a args ∧ (args.length ≤ 100000 ∧ ∀ x ∈ args, x.length ≤ longest) := by
  obtain ⟨a, h1, h2⟩ := forall₂_at (hcl.words t) h
  have h3 : ∃ w, Enc args w := by
    have : ∀ {cs : List (List Bytes)} {ws : List Bytes}, List.Forall₂ Enc cs ws → args ∈ cs → ∃ w, Enc args w := by
      intro cs ws hf
      induction hf with
      | nil => intro hx; simp at hx
      | cons h1 _ ih =>
        intro hx
        rcases List.mem_cons.1 hx with rfl | hx
        · exact ⟨_, h1⟩
        · exact ih hx
    exact this (hcl.enc t) (List.mem_of_getElem? h)
  obtain ⟨w, h3⟩ := h3
  exact ⟨a, h1, h2, enc_length h3⟩

theorem fresh_ok (hcl : Clients asks chunks cs ws) (hclock : ∀ t i, Fine (clock t i)) {t : Nat} {l : Loc} {data : Bytes}
    (h : Fresh pw y (clock t) (cs t) (ws t) data l) : ConnOk (cs t) (ws t) data l := by
  rcases h with h | ⟨args, h1, h2, h3⟩
  · exact Or.inl h
  · obtain ⟨a, _, h5, _⟩ := job_facts hcl h1
    exact Or.inr ⟨args, _, h1, h2, words_shape h5 (hclock _ _) pw y, h3⟩

/-- The rest of the command of a connection serves the rest of its parts. -/
def Rest (env : Spec.Env) (t0 : Int) (clock : Nat → Env) (asks : List Ask) (ps : List Reply) (l : Loc) : Prop :=
  ∀ own used P, l.job = .val (some ⟨own, used, P⟩) → ∃ a, asks[l.done]? = some a ∧ Serving env t0 (clock l.done) a ((parts a).drop ps.length) ps own P

theorem fresh_rest (hcl : Clients asks chunks cs ws) (hclock : ∀ t i, Fine (clock t i)) {t0 : Int} (hle : ∀ t i, t0 ≤ (clock t i).now) {t : Nat} {l : Loc} {data : Bytes}
    (h : Fresh pw y (clock t) (cs t) (ws t) data l) {env : Spec.Env} : Rest env t0 (clock t) (asks t) [] l := by
  intro own used P hj
  rcases h with h | ⟨args, h1, h2, _⟩
  · rw [h] at hj; cases hj
  · rw [h2] at hj
    simp only [Out.val.injEq, Option.some.injEq, Job.mk.injEq] at hj
    obtain ⟨rfl, rfl, rfl⟩ := hj
    obtain ⟨a, h4, h5, h6⟩ := job_facts hcl h1
    exact ⟨a, h4, serving h5 (hclock _ _) (hle _ _) h6⟩

theorem before_agrees {t0 now : Int} {st : Spec.State} {m : Store} (h : Agrees t0 st.dict m) (hle : t0 ≤ now) {own : Bool} {P : Prog (List W × ConnSt)} {key : Bytes}
    {ks : List Bytes} (hk : key ∈ ks ∨ ∃ x, P = .ret x) :
    ∃ m', Drops now ks m m' ∧ Agrees t0 (before now key st (cut own P)).dict m' ∧
      ((∃ op k, P = .call op k) → (before now key st (cut own P)).dict key = (before now key st (cut own P)).dict.get now key) := by
  cases P with
  | ret x =>
    refine ⟨m, drops_refl _ _ _, ?_, fun hc => ?_⟩
    · cases own <;> exact h
    · obtain ⟨_, _, hc⟩ := hc; cases hc
  | call op k =>
    have hk : key ∈ ks := by
      rcases hk with hk | ⟨_, hk⟩
      · exact hk
      · cases hk
    have e : before now key st (cut own (.call op k)) = forget now key st := by cases own <;> rfl
    rw [e]
    exact ⟨_, dropped_drops now hk m, agrees_forget h hle key, fun _ => by rw [forget_get]; exact update_self ..⟩

/-- What is known of the connections `loc` and the shards `mem` between two parts of commands; `S` tells what is known of the replies and the store. -/
def Known (c : Ctx) (n : Nat) (clock : Nat → Nat → Env) (asks : Nat → List Ask) (chunks : Nat → List Bytes) (cs : Nat → List (List Bytes)) (ws : Nat → List Bytes)
    (now0 : Int) (loc : Nat → Nat × Loc) (mem : Shards) (S : (Nat → List Reply) → (Nat → List Reply) → Store → Prop) : Prop :=
  AllInv c n mem ∧ (∀ t, (loc t).1 = t ∧ ConnOk (cs t) (ws t) (chunks t).flatten (loc t).2) ∧
    (NoWrap n mem → ∃ rs ps m st, S rs ps m ∧ R c n now0 mem st ∧ Agrees now0 st.dict m ∧
      ∀ t, (loc t).2.done = (rs t).length ∧ Reads (loc t).2.sent (rs t) ∧
        ((loc t).2.job = .val none → ps t = [] ∧ ∃ tail, Received (ws t) (chunks t).flatten (rs t).length tail) ∧
        Rest ⟨c.usecas, c.noevict, shardIdx c n⟩ now0 (clock t) (asks t) (ps t) (loc t).2)

/-- The start. -/
theorem known_start {shs : Shards} (hA : AllInv c n shs) {now0 : Int} {s : Spec.State} (hR : R c n now0 shs s)
    {m0 : Store} (hag : Agrees now0 s.dict m0) (hclock : ∀ t i, Fine (clock t i)) (hle : ∀ t i, now0 ≤ (clock t i).now)
    (hcl : Clients asks chunks cs ws) {S : (Nat → List Reply) → (Nat → List Reply) → Store → Prop} (hS : S (fun _ => []) (fun _ => []) m0) :
    Known c n clock asks chunks cs ws now0 (fun t => (t, opened pw y (clock t) (chunks t))) shs S := by
  have key := fun t => advance_spec (pw := pw) (y := y) (clock := clock t) (hcl.words t) (hcl.enc t) (hcl.come t)
    (l := ⟨chunks t, [], [], 0, .val none⟩) (by simp) (by simp)
  refine ⟨hA, fun t => ⟨rfl, fresh_ok hcl hclock (key t).2.2.1⟩, fun _ => ⟨fun _ => [], fun _ => [], _, s, hS, hR, hag, fun t => ?_⟩⟩
  obtain ⟨k1, k2, k3, k4⟩ := key t
  refine ⟨by simpa [opened] using k2, ?_, fun hj => ⟨rfl, ?_⟩, fresh_rest hcl hclock hle k3⟩
  · have : (opened pw y (clock t) (chunks t)).sent = [] := k1
    simp only [this]
    exact reads_nil
  · simpa using k4 hj

/-- One part of a command. -/
theorem known_step (hv : c.Valid) (hn : 0 < n) {now0 : Int} (hclock : ∀ t i, Fine (clock t i)) (hle : ∀ t i, now0 ≤ (clock t i).now)
    (hcl : Clients asks chunks cs ws) {loc1 : Nat → Nat × Loc} {mem1 mem' : Shards} {S S' : (Nat → List Reply) → (Nat → List Reply) → Store → Prop} {t : Nat} {l' : Nat × Loc}
    (ih : Known c n clock asks chunks cs ws now0 loc1 mem1 S) (htx : Conc.Txn (server c n pw y clock addr) (loc1 t) mem1 l' mem')
    (hS : ∀ rs ps m1 rs' ps' m2, S rs ps m1 → Next clock asks t rs ps m1 rs' ps' m2 → S' rs' ps' m2) :
    Known c n clock asks chunks cs ws now0 (update loc1 t l') mem' S' := by
  obtain ⟨ih1, ih2, ih3⟩ := ih
  obtain ⟨l1, hrun, hact⟩ := htx
  obtain ⟨it1, it2⟩ := ih2 t
  obtain ⟨⟨u, l⟩, hl⟩ : ∃ x, loc1 t = x := ⟨_, rfl⟩
  rw [hl] at it1 it2 hrun
  simp only [] at it1 it2
  subst it1
  rcases it2 with hidle | ⟨args, P, b1, b2, b5, b3, b4⟩
  · obtain ⟨rfl, rfl⟩ := run_idle hidle hrun
    rcases act_commit hact with ⟨_, _, _, _, hc, _⟩ | ⟨_, _, hc, _⟩ <;> rw [hidle] at hc <;> cases hc
  obtain ⟨d1, d2, d3, d4⟩ := run_part hv hn (hclock u l.done) b2 b5 ih1 hrun
  rcases d4 with ⟨used, Q, i, d4, d6, d5⟩ | d4
  swap
  · rcases act_commit hact with ⟨_, _, _, _, hc, _⟩ | ⟨_, _, hc, _⟩ <;> rw [d4] at hc <;> cases hc
  -- the part is done
  have hQ : (cut (batched args) P).exec c n full (clock u l.done).now 0 mem1 = .val (Q, mem') := by
    rw [d5]
    rcases act_commit hact with ⟨own, used', out, st, e1, _⟩ | ⟨op, k, e1, _⟩
    · rw [d4] at e1
      simp only [Out.val.injEq, Option.some.injEq, Job.mk.injEq] at e1
      obtain ⟨_, _, rfl⟩ := e1
      unfold rest
      split
      · rfl
      · cases batched args <;> rfl
    · rw [d4] at e1
      simp only [Out.val.injEq, Option.some.injEq, Job.mk.injEq] at e1
      obtain ⟨e2, e3, rfl⟩ := e1
      rw [rest, if_pos ⟨e2, e3⟩]
      rfl
  have hpart : NoWrap n mem' → ∃ rs ps m st, S rs ps m ∧
      (∀ t, (loc1 t).2.done = (rs t).length ∧ Reads (loc1 t).2.sent (rs t) ∧
        ((loc1 t).2.job = .val none → ps t = [] ∧ ∃ tail, Received (ws t) (chunks t).flatten (rs t).length tail) ∧
        Rest ⟨c.usecas, c.noevict, shardIdx c n⟩ now0 (clock t) (asks t) (ps t) (loc1 t).2) ∧
      ∃ a b bs m1 r m', (asks u)[(rs u).length]? = some a ∧ (parts a).drop (ps u).length = b :: bs ∧ Drops (clock u l.done).now (keysOf b) m m1 ∧
        Serves (clock u l.done).now m1 b r m' ∧ R c n now0 mem' st ∧ Agrees now0 st.dict m' ∧
        ((bs = [] ∧ ∃ out, Q = .ret (out, ⟨true⟩) ∧ Sends out (whole a (ps u ++ [r]))) ∨
        (bs ≠ [] ∧ (∃ op k, Q = .call op k) ∧ Serving ⟨c.usecas, c.noevict, shardIdx c n⟩ now0 (clock u l.done) a bs (ps u ++ [r]) (batched args) Q)) := by
    intro hnw
    obtain ⟨rs, ps, m, st, g1, g2, g3, g4⟩ := ih3 (d2 hnw)
    obtain ⟨k1, _, _, k4⟩ := g4 u
    rw [hl] at k1 k4
    obtain ⟨a, q1, q2⟩ := k4 _ _ _ b2
    simp only [] at k1
    obtain ⟨bs, hbs⟩ : ∃ bs, (parts a).drop (ps u).length = bs := ⟨_, rfl⟩
    rw [hbs] at q2
    cases bs with
    | nil => exact absurd q2 id
    | cons b bs =>
      obtain ⟨key, q3, q4, q5⟩ := q2
      rcases prog_exact hv hn (hclock u l.done).2.1 (hclock u l.done).2.2.1 _ q3.2.1 q3.1 q3.2.2 0 mem1 ih1 with ⟨Q', mem'', w1, w2, w3⟩ | w1
      swap
      · rw [hQ] at w1; cases w1
      rw [hQ] at w1
      simp only [Out.val.injEq, Prod.mk.injEq] at w1
      obtain ⟨rfl, rfl⟩ := w1
      obtain ⟨_, w4⟩ := w3 hnw
      obtain ⟨st', w5, w6⟩ := w4 now0 st (hle _ _) g2
      obtain ⟨m1, v1, v2, v3⟩ := before_agrees (own := batched args) g3 (hle u l.done) (q4.imp id And.right)
      obtain ⟨r, m', v4, v5, _, v6⟩ := q5 _ m1 _ _ v2 v3 w6
      exact ⟨rs, ps, m, st', g1, g4, a, b, bs, m1, r, m', k1 ▸ q1, hbs, v1, v4, w5, v5, v6⟩
  have hnth : ∀ {a b : Ask} {bs : List Ask} {k : Nat}, (parts a).drop k = b :: bs → (parts a)[k]? = some b ∧ (parts a).length = k + 1 + bs.length ∧ (parts a).drop (k + 1) = bs := by
    intro a b bs k hd
    have h1 := congrArg (fun x => x[0]?) hd
    have h2 := congrArg List.length hd
    simp at h1 h2
    refine ⟨h1, by omega, ?_⟩
    rw [← List.drop_drop, hd]
    rfl
  rcases act_commit hact with ⟨own, used', out, st, e1, e2⟩ | ⟨op, k, e1, e2⟩
  · rw [d4] at e1
    simp only [Out.val.injEq, Option.some.injEq, Job.mk.injEq] at e1
    obtain ⟨rfl, rfl, rfl⟩ := e1
    have hl' : l' = (u, if W.close ∈ out then { l with sent := renderAll out l.sent, done := l.done + 1, job := .val none }
        else advance pw y (clock u) { l with sent := renderAll out l.sent, done := l.done + 1, job := l1.2.job }) := by
      rw [e2, d3]
    have hadv := advance_spec (pw := pw) (y := y) (clock := clock u) (hcl.words u) (hcl.enc u) (hcl.come u)
      (l := { l with sent := renderAll out l.sent, done := l.done + 1, job := l1.2.job }) b3 b4
    refine ⟨d1, fun v => ?_, fun hnw => ?_⟩
    · by_cases hv' : v = u
      · subst hv'
        rw [update_self, hl']
        refine ⟨rfl, ?_⟩
        simp only []
        split
        · exact Or.inl rfl
        · exact fresh_ok hcl hclock hadv.2.2.1
      · rw [update_of_ne hv']
        exact ih2 v
    · obtain ⟨rs, ps, m, st1, g1, g2, a, b, bs, m1, r, m', q1, q2, q3, q4, q5, q6, q7⟩ := hpart hnw
      rcases q7 with ⟨rfl, out', q8, q9⟩ | ⟨_, ⟨_, _, q8⟩, _⟩
      swap
      · cases q8
      simp only [Prog.ret.injEq, Prod.mk.injEq] at q8
      obtain ⟨rfl, rfl⟩ := q8
      obtain ⟨n1, n2, _⟩ := hnth q2
      obtain ⟨k1, k2, _, _⟩ := g2 u
      rw [hl] at k1 k2
      simp only [] at k1 k2
      rw [k1] at q3 q4
      refine ⟨_, _, m', st1, hS _ _ _ _ _ _ g1 (.last q1 n1 (by simpa using n2.symm) q3 q4), q5, q6, fun v => ?_⟩
      by_cases hv' : v = u
      · subst hv'
        rw [update_self, update_self, update_self, hl']
        simp only [if_neg q9.2]
        obtain ⟨z1, z2, z3, z4⟩ := hadv
        refine ⟨by rw [z2]; simp [k1], by rw [z1]; exact reads_snoc q9.1 k2, fun hj => ⟨trivial, ?_⟩, fresh_rest hcl hclock hle z3⟩
        have := z4 hj
        simpa [k1] using this
      · rw [update_of_ne hv', update_of_ne hv', update_of_ne hv']
        exact g2 v
  · rw [d4] at e1
    simp only [Out.val.injEq, Option.some.injEq, Job.mk.injEq] at e1
    obtain ⟨o1, rfl, rfl⟩ := e1
    have hl' : l' = (u, { l with job := .val (some ⟨false, false, .call op k⟩) }) := by rw [e2, d3]
    refine ⟨d1, fun v => ?_, fun hnw => ?_⟩
    · by_cases hv' : v = u
      · subst hv'
        rw [update_self, hl']
        exact ⟨rfl, Or.inr ⟨args, .call op k, b1, by rw [o1], d6, b3, b4⟩⟩
      · rw [update_of_ne hv']
        exact ih2 v
    · obtain ⟨rs, ps, m, st1, g1, g2, a, b, bs, m1, r, m', q1, q2, q3, q4, q5, q6, q7⟩ := hpart hnw
      rcases q7 with ⟨_, _, q8, _⟩ | ⟨q8, _, q9⟩
      · cases q8
      obtain ⟨n1, n2, n3⟩ := hnth q2
      obtain ⟨k1, k2, _, _⟩ := g2 u
      rw [hl] at k1 k2
      simp only [] at k1 k2
      rw [k1] at q3 q4
      refine ⟨_, _, m', st1, hS _ _ _ _ _ _ g1 (.part q1 n1 ?_ q3 q4), q5, q6, fun v => ?_⟩
      · have := List.length_pos_of_ne_nil q8
        omega
      by_cases hv' : v = u
      · subst hv'
        rw [update_self, update_self, hl']
        refine ⟨k1, k2, fun hj => (by cases hj), fun own used P hj => ?_⟩
        simp only [Out.val.injEq, Option.some.injEq, Job.mk.injEq] at hj
        obtain ⟨rfl, rfl, rfl⟩ := hj
        refine ⟨a, by simp only []; rw [k1]; exact q1, ?_⟩
        rw [List.length_append, List.length_singleton, n3, ← o1]
        exact q9
      · rw [update_of_ne hv', update_of_ne hv']
        exact g2 v

theorem serial_inv (hv : c.Valid) (hn : 0 < n) {shs : Shards} (hA : AllInv c n shs) {now0 : Int} {s : Spec.State} (hR : R c n now0 shs s)
    {m0 : Store} (hag : Agrees now0 s.dict m0) (hclock : ∀ t i, Fine (clock t i)) (hle : ∀ t i, now0 ≤ (clock t i).now)
    (hcl : Clients asks chunks cs ws) {h : List Nat} {loc : Nat → Nat × Loc} {mem : Shards}
    (hser : Conc.Serial (server c n pw y clock addr) (fun t => (t, opened pw y (clock t) (chunks t))) shs h loc mem) :
    Known c n clock asks chunks cs ws now0 loc mem (ServedByKey clock asks m0 h) := by
  induction hser with
  | nil => exact known_start hA hR hag hclock hle hcl .none
  | snoc _ htx ih => exact known_step hv hn hclock hle hcl ih htx fun _ _ _ _ _ _ h1 h2 => .one h1 h2

/-- A connection in the middle of a command. -/
theorem client_part (hv : c.Valid) (hn : 0 < n) (hclock : ∀ t i, Fine (clock t i)) {t : Nat} {l : Loc} {cs : List (List Bytes)} {ws : List Bytes} {data : Bytes}
    (hok : ConnOk cs ws data l) {H : Nat → Prop} {m m1 : Shards} {l1 : Nat × Loc} (hm : AllInv c n m) (hrun : Conc.Run (server c n pw y clock addr) H (t, l) m l1 m1) :
    l1.2.sent = l.sent ∧ ((∃ j, l1.2.job = .val j) ∨ l1.2.job = .abort true) ∧ (l1.2.job = .val none → l.job = .val none) ∧ (NoWrap n m1 → NoWrap n m) := by
  rcases hok with hidle | ⟨args, P, b1, b2, b5, b3, b4⟩
  · obtain ⟨rfl, rfl⟩ := run_idle hidle hrun
    exact ⟨rfl, Or.inl ⟨_, hidle⟩, id, id⟩
  · obtain ⟨_, d2, d3, d4⟩ := run_part hv hn (hclock t l.done) b2 b5 hm hrun
    refine ⟨by rw [d3], ?_, fun hj => ?_, d2⟩
    · rcases d4 with ⟨_, _, _, d4, _⟩ | d4
      · exact Or.inl ⟨_, d4⟩
      · exact Or.inr d4
    · rcases d4 with ⟨_, _, _, d4, _⟩ | d4 <;> rw [hj] at d4 <;> cases d4

/-- What is true of the shards now was true of them when the parts in execution began. -/
theorem nowrap_back (hv : c.Valid) {L : Type} {p : Conc.Prog L Sh} {s' : Conc.State L Sh} {locA : Nat → L} {memA : Shards} (hsim : Conc.Sim p s' locA memA)
    (h1 : AllInv c n memA) (hback : ∀ t, ∀ (m m1 : Shards), AllInv c n m → Conc.Run p (s'.Has t) (locA t) m (s'.loc t) m1 → NoWrap n m1 → NoWrap n m)
    (hnw : NoWrap n s'.mem) : NoWrap n memA := by
  intro i hi
  by_cases hfree : ∀ t, ¬ s'.Has t i
  · rw [← hsim.free i hfree]; exact hnw i hi
  · simp only [not_forall, not_not] at hfree
    obtain ⟨t, ht⟩ := hfree
    cases hrel : s'.rel t with
    | true => rw [← (hsim.rel t hrel).2 i ht]; exact hnw i hi
    | false =>
      classical
      have hfresh : AllInv c n (fun j => if s'.Has t j then memA j else newCache c j) := by
        intro j hj
        beta_reduce
        split
        · exact h1 j hj
        · exact allInv_new hv n j hj
      obtain ⟨m0, hrun0, hmem⟩ := hsim.run t hrel
      obtain ⟨m1, hrun, hin, hout⟩ := hrun0.change (m' := fun j => if s'.Has t j then memA j else newCache c j) fun j hj => if_pos hj
      have hm1 : NoWrap n m1 := by
        intro j hj
        by_cases hh : s'.Has t j
        · rw [hin j hh, hmem j hh]; exact hnw j hj
        · rw [hout j hh, if_neg hh]; rfl
      have := hback t _ _ hfresh hrun hm1 i hi
      simpa [if_pos ht] using this

/-- The clients, from any state, and the state when they are idle. -/
theorem clients_from (hv : c.Valid) (hn : 0 < n) {shs : Shards} (hA : AllInv c n shs) {now0 : Int} {s : Spec.State} (hR : R c n now0 shs s)
    {m0 : Store} (hag : Agrees now0 s.dict m0) (hclock : ∀ t i, Fine (clock t i)) (hle : ∀ t i, now0 ≤ (clock t i).now)
    (hcl : Clients asks chunks cs ws) (hp : (server c n pw y clock addr).Ok) {h : List Nat} {s' : Conc.State (Nat × Loc) Sh}
    (he : Conc.Exec (server c n pw y clock addr) (fun t => (t, opened pw y (clock t) (chunks t))) shs s' h) :
    (∀ t, (∃ j, (s'.loc t).2.job = .val j) ∨ (s'.loc t).2.job = .abort true) ∧
    ((∀ t, (s'.loc t).2.job = .val none) → AllInv c n s'.mem) ∧
    (NoWrap n s'.mem → ∃ rs ps m, ServedByKey clock asks m0 h rs ps m ∧ (∀ t, Reads (s'.loc t).2.sent (rs t) ∧
      ((s'.loc t).2.job = .val none → ps t = [] ∧ ∃ tail, Received (ws t) (chunks t).flatten (rs t).length tail)) ∧
      ((∀ t, (s'.loc t).2.job = .val none) → ∃ st, R c n now0 s'.mem st ∧ Agrees now0 st.dict m)) := by
  obtain ⟨locA, memA, hser, hsim⟩ := Conc.exec_sim hp no_unlock he
  obtain ⟨h1, h2, h3⟩ := serial_inv hv hn hA hR hag hclock hle hcl hser
  have part : ∀ t, s'.rel t = false → (s'.loc t).2.sent = (locA t).2.sent ∧ ((∃ j, (s'.loc t).2.job = .val j) ∨ (s'.loc t).2.job = .abort true) ∧
      ((s'.loc t).2.job = .val none → (locA t).2.job = .val none) := by
    intro t hrel
    obtain ⟨m1, hrun, _⟩ := hsim.run t hrel
    obtain ⟨g1, g2, g3, _⟩ := client_part hv hn hclock (t := (locA t).1) (l := (locA t).2) (h2 t).2 h1 hrun
    exact ⟨g1, g2, g3⟩
  have hmem : (∀ t, (s'.loc t).2.job = .val none) → s'.mem = memA := by
    intro hidle
    funext i
    by_cases hfree : ∀ t, ¬ s'.Has t i
    · exact hsim.free i hfree
    · simp only [not_forall, not_not] at hfree
      obtain ⟨t, ht⟩ := hfree
      cases hrel : s'.rel t with
      | true => exact (hsim.rel t hrel).2 i ht
      | false =>
        obtain ⟨_, _, e3⟩ := part t hrel
        obtain ⟨m0, hrun, hm⟩ := hsim.run t hrel
        obtain ⟨_, rfl⟩ := run_idle (e3 (hidle t)) hrun
        exact (hm i ht).symm
  refine ⟨fun t => ?_, fun hidle => hmem hidle ▸ h1, fun hnw => ?_⟩
  · cases hrel : s'.rel t with
    | false => exact (part t hrel).2.1
    | true =>
      rw [(hsim.rel t hrel).1]
      rcases (h2 t).2 with hj | ⟨_, _, _, hj, _⟩ <;> exact Or.inl ⟨_, hj⟩
  · have hnwA : NoWrap n memA := nowrap_back hv hsim h1 (fun t m m1 hm hrun => (client_part hv hn hclock (t := (locA t).1) (l := (locA t).2) (h2 t).2 hm hrun).2.2.2) hnw
    obtain ⟨rs, ps, m, st, g1, g2, g3, g5⟩ := h3 hnwA
    refine ⟨rs, ps, m, g1, fun t => ?_, fun hidle => ?_⟩
    swap
    · rw [hmem hidle]
      exact ⟨st, g2, g3⟩
    obtain ⟨_, k3, k4, _⟩ := g5 t
    cases hrel : s'.rel t with
    | true =>
      rw [(hsim.rel t hrel).1]
      exact ⟨k3, k4⟩
    | false =>
      obtain ⟨e1, _, e3⟩ := part t hrel
      rw [e1]
      exact ⟨k3, fun hj => k4 (e3 hj)⟩

/-- **C101.**  Any number of RESP clients at once, each with its own connection and thread, any interleaving of the threads at the locks of the shards; any
commands, any way of writing them, any packets, and clocks that need not agree.  Take the commands in the order in which they are finished, where a command on several keys is
finished key by key (`h`): the replies of all clients are exactly
those of a server that executes one command, or one key of a command on several keys, at a time in this order; each command of a client is answered once and in the order sent, and a
client with nothing in execution has
got the replies to all commands that have come completely.  (Unless a distance counter of the hash table has wrapped, C01; memory is not low.) -/
theorem clients_served (hv : c.Valid) (hn : 0 < n) {shs : Shards} (hA : AllInv c n shs) {now0 : Int} {s : Spec.State} (hR : R c n now0 shs s)
    (hs : ∀ k it, s.dict k = some it → it.value.length ≤ longest ∧ it.expires < 2 ^ 63) (hclock : ∀ t i, Fine (clock t i)) (hle : ∀ t i, now0 ≤ (clock t i).now)
    (hcl : Clients asks chunks cs ws) (hp : (server c n pw y clock addr).Ok) {h : List Nat} {s' : Conc.State (Nat × Loc) Sh}
    (he : Conc.Exec (server c n pw y clock addr) (fun t => (t, opened pw y (clock t) (chunks t))) shs s' h) :
    (∀ t, (∃ j, (s'.loc t).2.job = .val j) ∨ (s'.loc t).2.job = .abort true) ∧
    (NoWrap n s'.mem → ∃ rs ps m, ServedByKey clock asks (ofDict s.dict) h rs ps m ∧ ∀ t, Reads (s'.loc t).2.sent (rs t) ∧
      ((s'.loc t).2.job = .val none → ps t = [] ∧ ∃ tail, Received (ws t) (chunks t).flatten (rs t).length tail)) := by
  obtain ⟨h1, _, h2⟩ := clients_from hv hn hA hR (agrees_ofDict hs now0) hclock hle hcl hp he
  refine ⟨h1, fun hnw => ?_⟩
  obtain ⟨rs, ps, m, g1, g2, _⟩ := h2 hnw
  exact ⟨rs, ps, m, g1, g2⟩

end

/-! ### Commands on one key -/

/-- Commands on one key are served one at a time. -/
theorem served_oneKey {asks : Nat → List Ask} (h1 : ∀ t, ∀ a ∈ asks t, OneKey a) {m m' : Store} {order : List Nat} {rs ps : Nat → List Reply}
    (h : ServedByKey clock asks m order rs ps m') : Served clock asks m order rs m' ∧ ∀ t, ps t = [] := by
  have single : ∀ a, OneKey a → ∃ b, parts a = [b] ∧ keysOf b = keysOf a ∧ ∀ now m r m', Serves now m b r m' → Serves now m a (whole a [r]) m' := by
    intro a ha
    have one : ∀ ks : List Bytes, ks.length = 1 → ∃ k, ks = [k] := fun ks hk => List.length_eq_one_iff.1 hk
    cases a with
    | mget ks =>
      obtain ⟨k, rfl⟩ := one ks ha
      refine ⟨.get k, rfl, rfl, fun now m r m' hs => ?_⟩
      cases hs
      exact .mget
    | exist ks =>
      obtain ⟨k, rfl⟩ := one ks ha
      refine ⟨.exist [k], rfl, rfl, fun now m r m' hs => ?_⟩
      cases hs
      have := Serves.exist (now := now) (m := m) (ks := [k])
      simpa [whole, total] using this
    | touch ks =>
      obtain ⟨k, rfl⟩ := one ks ha
      refine ⟨.touch [k], rfl, rfl, fun now m r m' hs => ?_⟩
      cases hs
      have := Serves.touch (now := now) (m := m) (ks := [k])
      simpa [whole, total] using this
    | del ks =>
      obtain ⟨k, rfl⟩ := one ks ha
      refine ⟨.del [k], rfl, rfl, fun now m r m' hs => ?_⟩
      cases hs
      have := Serves.del (now := now) (m := m) (ks := [k])
      simpa [whole, total] using this
    | _ => exact ⟨_, rfl, rfl, fun now m r m' hs => hs⟩
  induction h with
  | none => exact ⟨.none, fun _ => rfl⟩
  | @one order rs ps _ _ m1 m2 t _ hnext ih =>
  cases hnext with
  | @part m1' _ a b r g1 _ g3 _ _ =>
    obtain ⟨b', k1, _⟩ := single a (h1 t a (List.mem_of_getElem? g1))
    rw [k1, List.length_singleton] at g3
    omega
  | @last m1' _ a b r g1 g2 g3 g4 g5 =>
    obtain ⟨b', k1, k2, k3⟩ := single a (h1 t a (List.mem_of_getElem? g1))
    have hps := ih.2 t
    rw [k1, hps] at g2
    simp only [List.length_nil, List.getElem?_cons_zero, Option.some.injEq] at g2
    subst g2
    rw [hps, List.nil_append]
    refine ⟨.one ih.1 g1 (k2 ▸ g4) (k3 _ _ _ _ g5), fun v => ?_⟩
    by_cases hv : v = t
    · subst hv; exact update_self ..
    · rw [update_of_ne hv]; exact ih.2 v

/-- The parts of a command, at one time. -/
inductive ServesAll (now : Int) : Store → List Ask → List Reply → Store → Prop
  | nil {m : Store} : ServesAll now m [] [] m
  | cons {m m1 m2 : Store} {a : Ask} {as : List Ask} {r : Reply} {rs : List Reply} : Serves now m a r m1 → ServesAll now m1 as rs m2 → ServesAll now m (a :: as) (r :: rs) m2

theorem countP_dedup_cons (p : Bytes → Bool) (k : Bytes) (ks : List Bytes) :
    (k :: ks).dedup.countP p = (if p k then 1 else 0) + ks.dedup.countP fun j => p j && decide (j ≠ k) := by
  by_cases hk : k ∈ ks
  · rw [List.dedup_cons_of_mem hk]
    have hmem : k ∈ ks.dedup := List.mem_dedup.2 hk
    have hperm := List.perm_cons_erase hmem
    rw [hperm.countP_eq, hperm.countP_eq, List.countP_cons, List.countP_cons]
    have hnd : k ∉ ks.dedup.erase k := by
      have := (List.nodup_dedup ks)
      exact List.Nodup.not_mem_erase this
    have : (ks.dedup.erase k).countP p = (ks.dedup.erase k).countP fun j => p j && decide (j ≠ k) := by
      apply List.countP_congr
      intro j hj
      have : j ≠ k := by rintro rfl; exact hnd hj
      simp [this]
    rw [this]
    simp
    omega
  · rw [List.dedup_cons_of_notMem hk, List.countP_cons]
    have : ks.dedup.countP p = ks.dedup.countP fun j => p j && decide (j ≠ k) := by
      apply List.countP_congr
      intro j hj
      have : j ≠ k := by rintro rfl; exact hk (List.mem_dedup.1 hj)
      simp [this]
    rw [this]
    omega

/-- The parts are those of the command: if nothing comes between them, they do together what the command does. -/
theorem parts_whole {now : Int} {a : Ask} {m m' : Store} {rs : List Reply} (h : ServesAll now m (parts a) rs m') : Serves now m a (whole a rs) m' := by
  have get : ∀ (ks : List Bytes) (m m' : Store) rs, ServesAll now m (ks.map .get) rs m' → m' = m ∧ rs = ks.map fun k => asReply (m.see now k) := by
    intro ks
    induction ks with
    | nil => intro m m' rs h; cases h; exact ⟨rfl, rfl⟩
    | cons k ks ih =>
      intro m m' rs h
      cases h with
      | cons h1 h2 =>
        cases h1
        obtain ⟨rfl, rfl⟩ := ih _ _ _ h2
        exact ⟨rfl, rfl⟩
  have exist : ∀ (ks : List Bytes) (m m' : Store) rs, ServesAll now m (ks.map fun k => .exist [k]) rs m' → m' = m ∧ total rs = (ks.countP fun k => (m.see now k).isSome : Nat) := by
    intro ks
    induction ks with
    | nil => intro m m' rs h; cases h; exact ⟨rfl, rfl⟩
    | cons k ks ih =>
      intro m m' rs h
      cases h with
      | cons h1 h2 =>
        cases h1
        obtain ⟨rfl, h3⟩ := ih _ _ _ h2
        refine ⟨rfl, ?_⟩
        rw [total, h3]
        simp only [List.countP_cons, List.countP_nil]
        push_cast
        ring
  have touch : ∀ (ks : List Bytes) (m m' : Store) rs, ServesAll now m (ks.map fun k => .touch [k]) rs m' → m' = m ∧ total rs = (ks.countP fun k => (m.see now k).isSome : Nat) := by
    intro ks
    induction ks with
    | nil => intro m m' rs h; cases h; exact ⟨rfl, rfl⟩
    | cons k ks ih =>
      intro m m' rs h
      cases h with
      | cons h1 h2 =>
        cases h1
        obtain ⟨rfl, h3⟩ := ih _ _ _ h2
        refine ⟨rfl, ?_⟩
        rw [total, h3]
        simp only [List.countP_cons, List.countP_nil]
        push_cast
        ring
  have del : ∀ (ks : List Bytes) (m m' : Store) rs, ServesAll now m (ks.map fun k => .del [k]) rs m' →
      m' = (fun k => if k ∈ ks then none else m k) ∧ total rs = (ks.dedup.countP fun k => (m.see now k).isSome : Nat) := by
    intro ks
    induction ks with
    | nil => intro m m' rs h; cases h; exact ⟨by simp, rfl⟩
    | cons k ks ih =>
      intro m m' rs h
      cases h with
      | cons h1 h2 =>
        cases h1
        obtain ⟨rfl, h3⟩ := ih _ _ _ h2
        refine ⟨?_, ?_⟩
        · funext j
          by_cases h1 : j ∈ ks <;> by_cases h2 : j = k <;> simp [h1, h2]
        · rw [total, h3]
          have e : (fun j => (Store.see (fun k' => if k' ∈ [k] then none else m k') now j).isSome) = fun j => (m.see now j).isSome && decide (j ≠ k) := by
            funext j
            by_cases hj : j = k
            · subst hj; simp [Store.see]
            · simp [Store.see, hj]
          rw [e]
          have : [k].dedup.countP (fun j => (m.see now j).isSome) = if (m.see now k).isSome then 1 else 0 := by simp
          rw [this, countP_dedup_cons _ k ks]
          push_cast
          rfl
  cases a with
  | mget ks => obtain ⟨rfl, rfl⟩ := get _ _ _ _ h; exact .mget
  | exist ks =>
    obtain ⟨rfl, h1⟩ := exist _ _ _ _ h
    rw [whole, h1]
    exact .exist
  | touch ks =>
    obtain ⟨rfl, h1⟩ := touch _ _ _ _ h
    rw [whole, h1]
    exact .touch
  | del ks =>
    obtain ⟨rfl, h1⟩ := del _ _ _ _ h
    rw [whole, h1]
    exact .del
  | _ =>
    cases h with
    | cons h1 h2 =>
      cases h2
      exact h1

end Verif.Many
