import Mathlib.Tactic.Common
import Verif.Mix.PgParts
import Verif.Many.Props

/-!
C106, C109, C110: any number of RESP, memcache, HTTP and Postgres clients at once, from the bytes received to the bytes sent.
-/

namespace Verif.Mix

open Verif.Num Verif.Resp Verif.Cmd Verif.Cache Verif.Shard Verif.Map Function
open Verif.Many (Neat cut Shape full rest shape_call exec_onShard call_exact prog_exact nowrap_back forall₂_at callKey onShard before)

/-! ### What is known of a command -/

/-- The environment of a command: the protocol, memory is not low, times of 64 bits. -/
def Fine : Kind → Env → Prop
  | .resp, e => Wire.Fine e
  | .memcache, e => McWire.Fine e
  | .http, e => FineHttp e
  | .postgres .., e => FinePg e

theorem Fine.now {kind : Kind} {e : Env} (h : Fine kind e) : 0 < e.now ∧ IsI64 e.now := by
  cases kind
  · exact ⟨h.2.1, h.2.2.1⟩
  · exact ⟨h.2.1, h.2.2.1⟩
  · exact ⟨h.2.1, h.2.2.1⟩
  · exact ⟨h.2.1, h.2.2.1⟩

theorem once_iff {kind : Kind} : kind.once = true ↔ kind = .http := by cases kind <;> simp [Kind.once]

/-- What the parser made of a command serves its parts. -/
def Handled (y : Sys) (kind : Kind) (a : Ask) (q : Req) : Prop :=
  ∀ (e : Env) (pw : Bytes) (env : Spec.Env) (t0 : Int), env.usecas = true → Fine kind e → t0 ≤ e.now →
    Shape (batchedReq q) (run e pw y q) ∧ Serving env y.version t0 e a (parts a) [] (batchedReq q) (run e pw y q)

theorem framed_bind {α β : Type} {parse : Bytes → PR (α × Nat)} {a : α} {w : Bytes} (f : α → β) (h : Framed parse a w) :
    Framed (fun b => (parse b).bind fun x => .got (f x.1, x.2)) (f a) w := by
  obtain ⟨h1, h2, h3⟩ := h
  refine ⟨h1, fun rest => ?_, fun p p1 p2 p3 => ?_⟩
  · beta_reduce; rw [h2]; rfl
  · beta_reduce; rw [h3 p p1 p2 p3]; rfl

theorem written_handled {y : Sys} (hver : ∀ b ∈ y.version, 32 ≤ b) {kind : Kind} {a : Ask} {w : Bytes} (h : Written kind a w) :
    ∃ q, (∀ pw, Framed (parseOf pw kind) q w) ∧ Handled y kind a q := by
  cases h with
  | @resp a args w h1 h2 =>
    refine ⟨.resp args, fun _ => framed_bind Req.resp (enc_framed h2), fun e pw env t0 hu he hle => ?_⟩
    obtain ⟨_, _, _, hne⟩ := Wire.words_program h1 e pw y
    have er : run e pw y (.resp args) = (evcommand e pw (admin y) args ⟨true⟩).map fun r => (renderAll r.1 [], decide (W.close ∈ r.1)) := if_neg hne
    rw [er]
    obtain ⟨k1, k2⟩ := Many.words_shape h1 he pw y
    refine ⟨⟨k1.map, fun ho => ?_⟩, ?_⟩
    · obtain ⟨key, hk⟩ := k2 ho
      exact ⟨key, hk.map⟩
    · exact serving_resp hu hle (Many.serving h1 he hle (Wire.enc_length h2)) y.version
  | @mc a w h1 =>
    obtain ⟨q, g1, g2, g3, g4⟩ := McWire.writes_handled hver h1
    exact ⟨.mc q, fun _ => framed_bind Req.mc (Mc.request_framed g1 g2), fun e pw env t0 hu he hle => serving_mc hu he hle g3 g4⟩
  | pg hi herr ha hw hl hlen => exact ⟨_, fun _ => framed_pg hlen, fun e pw env t0 hu he hle => serving_pg hu he hle hi herr ha hw hl hlen⟩

/-! ### The next command -/

theorem parse_spec {parse : Bytes → PR (Req × Nat)} {cs : List Req} {ws : List Bytes} (h : List.Forall₂ (Framed parse) cs ws) (packet : Bytes)
    (hp : packet <+: ws.flatten) :
    (∃ args cs' w ws' rest, cs = args :: cs' ∧ ws = w :: ws' ∧ packet = w ++ rest ∧
      (if packet = [] then PR.more else parse packet) = .got (args, w.length)) ∨
    ((if packet = [] then PR.more else parse packet) = .more ∧ ((ws = [] ∧ packet = []) ∨ ∃ w ws', ws = w :: ws' ∧ packet <+: w ∧ packet ≠ w)) := by
  cases h with
  | nil =>
    right
    have hnil : packet = [] := List.prefix_nil.1 hp
    exact ⟨if_pos hnil, Or.inl ⟨rfl, hnil⟩⟩
  | @cons args w cs' ws' h1 _ =>
    obtain ⟨g1, g2, g3⟩ := h1
    rw [List.flatten_cons] at hp
    by_cases hl : w.length ≤ packet.length
    · obtain ⟨rest, hrest⟩ := List.prefix_of_prefix_length_le (List.prefix_append w ws'.flatten) hp hl
      left
      refine ⟨args, cs', w, ws', rest, rfl, rfl, hrest.symm, ?_⟩
      rw [if_neg (by rw [← hrest]; simp [g1]), ← hrest, g2]
    · right
      have hpw : packet <+: w := List.prefix_of_prefix_length_le hp (List.prefix_append w ws'.flatten) (by omega)
      have hne : packet ≠ w := by rintro rfl; omega
      refine ⟨?_, Or.inr ⟨w, ws', rfl, hpw, hne⟩⟩
      split
      · rfl
      · exact g3 _ hpw hne ‹_›

theorem fetch_spec {parse : Bytes → PR (Req × Nat)} {cs : List Req} {ws : List Bytes} (h : List.Forall₂ (Framed parse) cs ws) (chunks : List Bytes) (packet : Bytes)
    (hp : packet ++ chunks.flatten <+: ws.flatten) :
    (fetch parse chunks packet = none ∧ ((ws = [] ∧ packet ++ chunks.flatten = []) ∨
      ∃ w ws', ws = w :: ws' ∧ packet ++ chunks.flatten <+: w ∧ packet ++ chunks.flatten ≠ w)) ∨
    ∃ args cs' w ws' packet' chunks', cs = args :: cs' ∧ ws = w :: ws' ∧ fetch parse chunks packet = some (args, packet', chunks') ∧
      packet ++ chunks.flatten = w ++ (packet' ++ chunks'.flatten) := by
  induction chunks generalizing packet with
  | nil =>
    rcases parse_spec h packet ((List.prefix_append packet _).trans hp) with ⟨args, cs', w, ws', rest, rfl, rfl, rfl, h5⟩ | ⟨h5, h6⟩
    · right
      refine ⟨args, cs', w, ws', rest, [], rfl, rfl, ?_, by simp⟩
      rw [fetch, h5]
      simp
    · left
      refine ⟨by rw [fetch, h5], ?_⟩
      simpa using h6
  | cons c chunks ih =>
    rcases parse_spec h packet ((List.prefix_append packet _).trans hp) with ⟨args, cs', w, ws', rest, rfl, rfl, rfl, h5⟩ | ⟨h5, _⟩
    · right
      refine ⟨args, cs', w, ws', rest, c :: chunks, rfl, rfl, ?_, by simp⟩
      rw [fetch, h5]
      simp
    · have e1 : packet ++ (c :: chunks).flatten = (packet ++ c) ++ chunks.flatten := by simp
      have e2 : fetch parse (c :: chunks) packet = fetch parse chunks (packet ++ c) := by rw [fetch, h5]
      rw [e1] at hp ⊢
      rw [e2]
      exact ih _ hp

/-- A connection between two commands: idle, or about to execute the next command. -/
def Fresh (pw : Bytes) (y : Sys) (clock : Nat → Env) (cs : List Req) (ws : List Bytes) (data : Bytes) (l : Loc) : Prop :=
  l.job = .val none ∨ ∃ args, cs[l.done]? = some args ∧ l.job = .val (some ⟨batchedReq args, false, run (clock l.done) pw y args⟩) ∧
    l.done + 1 ≤ ws.length ∧ data = (ws.take (l.done + 1)).flatten ++ (l.packet ++ l.chunks.flatten)

theorem advance_spec {pw : Bytes} {y : Sys} {clock : Nat → Env} {kind : Kind} {cs : List Req} {ws : List Bytes}
    (he : List.Forall₂ (Framed (parseOf pw kind)) cs ws) {data : Bytes} (hd : data <+: ws.flatten) {l : Loc} (hk : l.done ≤ ws.length)
    (hl : data = (ws.take l.done).flatten ++ (l.packet ++ l.chunks.flatten)) :
    (advance kind pw y clock l).sent = l.sent ∧ (advance kind pw y clock l).done = l.done ∧ Fresh pw y clock cs ws data (advance kind pw y clock l) ∧
      ((advance kind pw y clock l).job = .val none → ∃ tail, Received ws data l.done tail) := by
  have hf : List.Forall₂ (Framed (parseOf pw kind)) (cs.drop l.done) (ws.drop l.done) := List.forall₂_drop _ he
  have hp : l.packet ++ l.chunks.flatten <+: (ws.drop l.done).flatten := by
    rw [hl] at hd
    have : ws.flatten = (ws.take l.done).flatten ++ (ws.drop l.done).flatten := by rw [← List.flatten_append, List.take_append_drop]
    rw [this] at hd
    exact (List.prefix_append_right_inj _).1 hd
  rcases fetch_spec hf l.chunks l.packet hp with ⟨h1, h2⟩ | ⟨args, cs', w, ws', packet', chunks', h1, h2, h3, h4⟩
  · have e : advance kind pw y clock l = { l with job := .val none } := by unfold advance; rw [h1]
    rw [e]
    refine ⟨rfl, rfl, Or.inl rfl, fun _ => ⟨l.packet ++ l.chunks.flatten, hl, hk, ?_⟩⟩
    rcases h2 with ⟨h2, h3⟩ | ⟨w, ws', h2, h3, h4⟩
    · left
      have := congrArg List.length h2
      simp at this
      exact ⟨by omega, h3⟩
    · right
      refine ⟨w, ?_, h3, h4⟩
      have := congrArg (fun x => x[0]?) h2
      simpa using this
  · have h5 : cs[l.done]? = some args := by
      have := congrArg (fun x => x[0]?) h1
      simpa using this
    have h6 : ws[l.done]? = some w := by
      have := congrArg (fun x => x[0]?) h2
      simpa using this
    have e : advance kind pw y clock l =
        { l with chunks := chunks', packet := packet', job := .val (some ⟨batchedReq args, false, run (clock l.done) pw y args⟩) } := by
      unfold advance
      rw [h3]
    rw [e]
    refine ⟨rfl, rfl, Or.inr ⟨args, h5, rfl, ?_, ?_⟩, fun hc => by cases hc⟩
    · have := (List.getElem?_eq_some_iff.1 h6).1
      show l.done + 1 ≤ ws.length
      omega
    · simp only []
      rw [hl, h4, List.take_add_one, h6]
      simp

/-! ### One command -/

/-- A connection when its thread has no locks: idle, or about to execute the rest of the next command. -/
def ConnOk (cs : List Req) (ws : List Bytes) (data : Bytes) (l : Loc) : Prop :=
  l.job = .val none ∨ ∃ args P, cs[l.done]? = some args ∧ l.job = .val (some ⟨batchedReq args, false, P⟩) ∧ Shape (batchedReq args) P ∧
    l.done + 1 ≤ ws.length ∧ data = (ws.take (l.done + 1)).flatten ++ (l.packet ++ l.chunks.flatten)

variable {c : Ctx} {n : Nat} {kind : Nat → Kind} {pw : Bytes} {y : Sys} {clock : Nat → Nat → Env} {addr : Nat → Nat}

theorem act_access {l : Nat × Loc} {own : Bool} {i : Nat} {f : Sh → (Nat × Loc) × Sh} (h : (server c n kind pw y clock addr).act l = .access own i f) :
    ∃ used op k key, l.2.job = .val (some ⟨own, used, .call op k⟩) ∧ ¬ (own = false ∧ used = true) ∧ callKey op = some key ∧ i = shardIdx c n key ∧
      ∀ sh, f sh = match onShard c (clock l.1 l.2.done).now (toOp op) sh with
        | .val r => ((l.1, { l.2 with job := .val (some ⟨own, true, k ⟨toStatus r.status, r.seen.map kv⟩⟩) }), r.sh)
        | bad => ((l.1, { l.2 with job := bad.bind fun _ => .val none }), sh) := by
  obtain ⟨t, l⟩ := l
  simp only [server] at h
  cases hs : step c n (kind t) pw y (clock t) l with
  | access own' i' f' =>
    rw [hs] at h
    simp only [Conc.Act.access.injEq] at h
    obtain ⟨rfl, rfl, rfl⟩ := h
    unfold step at hs
    split at hs
    · dsimp only at hs
      split at hs <;> cases hs
    · rename_i own used op k hj
      split at hs
      · cases hs
      · rename_i hu
        split at hs
        · cases hs
        · rename_i key hk
          simp only [Conc.Act.access.injEq] at hs
          obtain ⟨rfl, rfl, rfl⟩ := hs
          refine ⟨used, op, k, key, hj, hu, hk, rfl, fun sh => ?_⟩
          dsimp only
          cases onShard c (clock t l.done).now (toOp op) sh <;> rfl
    · cases hs
  | unlock i l' => rw [hs] at h; cases h
  | commit l' => rw [hs] at h; cases h
  | done => rw [hs] at h; cases h

theorem act_commit {l l' : Nat × Loc} (h : (server c n kind pw y clock addr).act l = .commit l') :
    (∃ own used out close, l.2.job = .val (some ⟨own, used, .ret (out, close)⟩) ∧
      l' = (l.1, if close = true ∨ (kind l.1).once = true then { l.2 with sent := l.2.sent ++ out, done := l.2.done + 1, job := .val none }
        else advance (kind l.1) pw y (clock l.1) { l.2 with sent := l.2.sent ++ out, done := l.2.done + 1 })) ∨
    ∃ op k, l.2.job = .val (some ⟨false, true, .call op k⟩) ∧ l' = (l.1, { l.2 with job := .val (some ⟨false, false, .call op k⟩) }) := by
  obtain ⟨t, l⟩ := l
  simp only [server] at h
  cases hs : step c n (kind t) pw y (clock t) l with
  | access own' i' f' => rw [hs] at h; cases h
  | unlock i l' => rw [hs] at h; cases h
  | commit l'' =>
    rw [hs] at h
    simp only [Conc.Act.commit.injEq] at h
    subst h
    unfold step at hs
    split at hs
    · rename_i own used out st hj
      left
      refine ⟨own, used, out, st, hj, ?_⟩
      dsimp only at hs ⊢
      split at hs
      · rename_i hcl
        cases hs
        rw [if_pos hcl]
      · rename_i hcl
        cases hs
        rw [if_neg hcl]
    · rename_i own used op k hj
      split at hs
      · rename_i hu
        obtain ⟨rfl, rfl⟩ := hu
        cases hs
        exact Or.inr ⟨op, k, hj, rfl⟩
      · split at hs <;> cases hs
    · cases hs
  | done => rw [hs] at h; cases h

theorem no_unlock : Conc.NoUnlock (server c n kind pw y clock addr) := by
  rintro ⟨t, l⟩ i l' h
  simp only [server] at h
  cases hs : step c n (kind t) pw y (clock t) l with
  | access own' i' f' => rw [hs] at h; cases h
  | unlock i l' =>
    unfold step at hs
    split at hs
    · dsimp only at hs
      split at hs <;> cases hs
    · split at hs
      · cases hs
      · split at hs <;> cases hs
    · cases hs
  | commit l' => rw [hs] at h; cases h
  | done => rw [hs] at h; cases h

theorem run_idle {H : Nat → Prop} {l l1 : Nat × Loc} {m m1 : Shards} (hj : l.2.job = .val none) (h : Conc.Run (server c n kind pw y clock addr) H l m l1 m1) :
    l1 = l ∧ m1 = m := by
  induction h with
  | refl => exact ⟨rfl, rfl⟩
  | access _ _ ha ih =>
    obtain ⟨rfl, rfl⟩ := ih
    obtain ⟨_, _, _, _, h1, _⟩ := act_access ha
    rw [hj] at h1
    cases h1

/-- The part of a command done so far. -/
theorem run_part (hv : c.Valid) (hn : 0 < n) {t : Nat} {l : Loc} (hf : Fine (kind t) (clock t l.done)) {H : Nat → Prop} {m m1 : Shards} {l1 : Nat × Loc} {own : Bool}
    {P : Prog (Bytes × Bool)} (hj : l.job = .val (some ⟨own, false, P⟩)) (hs : Shape own P) (hA : AllInv c n m)
    (h : Conc.Run (server c n kind pw y clock addr) H (t, l) m l1 m1) :
    AllInv c n m1 ∧ (NoWrap n m1 → NoWrap n m) ∧ l1 = (t, { l with job := l1.2.job }) ∧
      ((∃ used Q i, l1.2.job = .val (some ⟨own, used, Q⟩) ∧ Shape own Q ∧
        (cut own P).exec c n full (clock t l.done).now 0 m = (rest own used Q).exec c n full (clock t l.done).now i m1) ∨ l1.2.job = .abort true) := by
  induction h with
  | refl => exact ⟨hA, id, rfl, Or.inl ⟨false, P, 0, hj, hs, by rw [rest, if_neg (by simp)]⟩⟩
  | @access l1 m1 own' i f _ _ ha ih =>
    obtain ⟨ih1, ih2, ih3, ih4⟩ := ih
    obtain ⟨used, op, k, key, h1, h2, h3, rfl, h5⟩ := act_access ha
    rcases ih4 with ⟨used', Q, i, g1, g3, g4⟩ | g1
    swap
    · rw [h1] at g1; cases g1
    rw [h1] at g1
    simp only [Out.val.injEq, Option.some.injEq, Job.mk.injEq] at g1
    obtain ⟨rfl, rfl, rfl⟩ := g1
    have hd : (clock l1.1 l1.2.done).now = (clock t l.done).now := by rw [ih3]
    rw [h5, hd]
    have href := call_exact hv hn i hf.now.1 hf.now.2 g3.1.1 h3 ih1
    rw [exec_onShard h3] at href
    cases hx : onShard c (clock t l.done).now (toOp op) (m1 (shardIdx c n key)) with
    | val r =>
      rw [hx] at href
      rcases href with ⟨r', hr, hA', hw⟩ | hab
      · simp only [Out.bind, Out.val.injEq] at hr
        subst hr
        refine ⟨hA', fun hnw => ih2 (hw hnw).1, ?_, Or.inl ⟨true, _, i + 1, rfl, shape_call g3 _, ?_⟩⟩
        · simp only []
          rw [ih3]
        · rw [g4, rest, if_neg h2, rest]
          cases own' with
          | true =>
            rw [if_neg (by simp)]
            rw [cut, Prog.map, Prog.exec, exec_onShard h3, hx]
            rfl
          | false =>
            rw [if_pos ⟨rfl, rfl⟩]
            conv_lhs => rw [cut, Prog.exec, exec_onShard h3, hx]
            rfl
      · cases hab
    | hang => rw [hx] at href; rcases href with ⟨_, hr, _⟩ | hr <;> cases hr
    | ub => rw [hx] at href; rcases href with ⟨_, hr, _⟩ | hr <;> cases hr
    | abort b =>
      rw [hx] at href
      rcases href with ⟨_, hr, _⟩ | hr
      · cases hr
      · simp only [Out.bind, Out.abort.injEq] at hr
        subst hr
        have e : update m1 (shardIdx c n key) (m1 (shardIdx c n key)) = m1 := update_eq_self _ _
        simp only [e]
        refine ⟨ih1, ih2, ?_, Or.inr rfl⟩
        rw [ih3]

/-! ### Commands one after the other -/

/-- The clients: what they ask, how it is written, and the packets in which it comes. -/
structure Clients (pw : Bytes) (kind : Nat → Kind) (asks : Nat → List Ask) (chunks : Nat → List Bytes) (ws : Nat → List Bytes) : Prop where
  written : ∀ t, kind t ≠ .http → List.Forall₂ (Written (kind t)) (asks t) (ws t)
  http : ∀ t, kind t = .http → Sends pw (asks t) (chunks t) (ws t)
  come : ∀ t, (chunks t).flatten <+: (ws t).flatten

/-- What the parser makes of what an HTTP client sends. -/
def ParsedHttp (pw : Bytes) (chunks : List Bytes) (cs : List Req) (ws : List Bytes) : Prop :=
  (cs = [] ∧ ws = []) ∨ ∃ q w, cs = [q] ∧ ws = [w] ∧ w ≠ [] ∧ parseOf pw .http w = .got (q, w.length) ∧
    ∀ j, (chunks.take j).flatten ≠ [] → (chunks.take j).flatten ≠ w → parseOf pw .http (chunks.take j).flatten = .more

/-- What the parsers make of what they send. -/
structure Parsed (pw : Bytes) (y : Sys) (kind : Nat → Kind) (asks : Nat → List Ask) (chunks : Nat → List Bytes) (cs : Nat → List Req) (ws : Nat → List Bytes) : Prop where
  handled : ∀ t, List.Forall₂ (Handled y (kind t)) (asks t) (cs t)
  framed : ∀ t, kind t ≠ .http → List.Forall₂ (Framed (parseOf pw (kind t))) (cs t) (ws t)
  http : ∀ t, kind t = .http → ParsedHttp pw (chunks t) (cs t) (ws t)
  come : ∀ t, (chunks t).flatten <+: (ws t).flatten

theorem Clients.parsed {asks : Nat → List Ask} {chunks : Nat → List Bytes} {ws : Nat → List Bytes} (h : Clients pw kind asks chunks ws) (hver : ∀ b ∈ y.version, 32 ≤ b) :
    ∃ cs, Parsed pw y kind asks chunks cs ws := by
  have key : ∀ {k : Kind} {as : List Ask} {ws : List Bytes}, List.Forall₂ (Written k) as ws → ∃ cs, List.Forall₂ (Handled y k) as cs ∧ List.Forall₂ (Framed (parseOf pw k)) cs ws := by
    intro k as ws hf
    induction hf with
    | nil => exact ⟨[], .nil, .nil⟩
    | cons h1 _ ih =>
      obtain ⟨q, k1, k2⟩ := written_handled hver h1
      obtain ⟨cs, k3, k4⟩ := ih
      exact ⟨q :: cs, .cons k2 k3, .cons (k1 pw) k4⟩
  have all : ∀ t, ∃ cs, List.Forall₂ (Handled y (kind t)) (asks t) cs ∧ (kind t ≠ .http → List.Forall₂ (Framed (parseOf pw (kind t))) cs (ws t)) ∧
      (kind t = .http → ParsedHttp pw (chunks t) cs (ws t)) := by
    intro t
    by_cases hk : kind t = .http
    · rcases h.http t hk with ⟨h1, h2⟩ | ⟨a, r, h1, h2, h3, h4, h5, h6⟩
      · exact ⟨[], by rw [h1]; exact .nil, fun hc => absurd hk hc, fun _ => Or.inl ⟨rfl, h2⟩⟩
      · have hne : r.wire ≠ [] := by
          rw [Http.Request.wire]
          simp
        refine ⟨[.http r.command], ?_, fun hc => absurd hk hc, fun _ => Or.inr ⟨_, r.wire, rfl, h2, hne, parse_whole h3 h4, fun j j1 j2 => ?_⟩⟩
        · rw [h1, hk]
          exact .cons (fun e pw env t0 hu he hle => serving_http hu he hle h3 h5) .nil
        · have hpre : ((chunks t).take j).flatten <+: r.wire := by
            have := h.come t
            rw [h2, List.flatten_cons, List.flatten_nil, List.append_nil] at this
            refine List.IsPrefix.trans ?_ this
            conv_rhs => rw [← List.take_append_drop j (chunks t), List.flatten_append]
            exact List.prefix_append _ _
          rcases h6 j with h6 | h6
          · exact absurd h6 j1
          · exact parse_wait h3 hpre j2 h6
    · obtain ⟨cs, k1, k2⟩ := key (h.written t hk)
      exact ⟨cs, k1, fun _ => k2, fun hc => absurd hc hk⟩
  choose cs k1 k2 k3 using all
  exact ⟨cs, k1, k2, k3, h.come⟩

/-- The first request of an HTTP connection. -/
theorem start_spec {clock : Nat → Env} {cs : List Req} {ws chunks : List Bytes} (h : ParsedHttp pw chunks cs ws) (hd : chunks.flatten <+: ws.flatten) :
    (advance .http pw y clock ⟨chunks, [], [], 0, .val none⟩).sent = [] ∧ (advance .http pw y clock ⟨chunks, [], [], 0, .val none⟩).done = 0 ∧
      Fresh pw y clock cs ws chunks.flatten (advance .http pw y clock ⟨chunks, [], [], 0, .val none⟩) ∧
      ((advance .http pw y clock ⟨chunks, [], [], 0, .val none⟩).job = .val none → ∃ tail, Received ws chunks.flatten 0 tail) := by
  rcases h with ⟨rfl, rfl⟩ | ⟨q, w, rfl, rfl, hw, hgot, hmore⟩
  · have hnil : ∀ j, (chunks.take j).flatten = [] := by
      intro j
      have h1 : chunks.flatten = [] := by simpa using hd
      have h2 : (chunks.take j).flatten <+: chunks.flatten := by
        conv_rhs => rw [← List.take_append_drop j chunks, List.flatten_append]
        exact List.prefix_append _ _
      rw [h1] at h2
      simpa using h2
    have hf : ∀ (l : List Bytes), l.flatten = [] → fetch (parseOf pw .http) l [] = none := by
      intro l
      induction l with
      | nil => intro _; rfl
      | cons c l ih =>
        intro hl
        rw [List.flatten_cons, List.append_eq_nil_iff] at hl
        obtain ⟨rfl, hl⟩ := hl
        exact ih hl
    have h0 : chunks.flatten = [] := by simpa using hd
    have e : advance .http pw y clock ⟨chunks, [], [], 0, .val none⟩ = ⟨chunks, [], [], 0, .val none⟩ := by
      unfold advance
      rw [hf _ h0]
    rw [e]
    exact ⟨rfl, rfl, Or.inl rfl, fun _ => ⟨[], by simp [h0], by simp, Or.inl ⟨rfl, rfl⟩⟩⟩
  · rw [List.flatten_cons, List.flatten_nil, List.append_nil] at hd
    rcases fetch_one hw hgot chunks [] (by simpa using hmore) (by simpa using hd) with ⟨h1, h2⟩ | ⟨chunks', h1, h2, h3⟩
    · have e : advance .http pw y clock ⟨chunks, [], [], 0, .val none⟩ = ⟨chunks, [], [], 0, .val none⟩ := by
        unfold advance
        rw [h1]
      rw [e]
      refine ⟨rfl, rfl, Or.inl rfl, fun _ => ⟨chunks.flatten, by simp, by simp, Or.inr ⟨w, rfl, hd, by simpa using h2⟩⟩⟩
    · have e : advance .http pw y clock ⟨chunks, [], [], 0, .val none⟩ = ⟨chunks', [], [], 0, .val (some ⟨batchedReq q, false, run (clock 0) pw y q⟩)⟩ := by
        unfold advance
        rw [h1]
      rw [e]
      refine ⟨rfl, rfl, Or.inr ⟨q, rfl, rfl, by simp, ?_⟩, fun hc => by cases hc⟩
      simp only [h2]
      simpa using h3

theorem agr_ofState {grp : Bytes → Nat} {s : Spec.State} (hs : ∀ k it, s.dict k = some it → it.value.length ≤ Wire.longest ∧ it.expires < 2 ^ 63) (now : Int) :
    Agr grp now s (McWire.ofState grp s) := by
  refine ⟨⟨fun k => (McWire.see_get ..).symm, fun k => Nat.le_refl _⟩, fun k x hx => ?_⟩
  unfold McWire.Store.see McWire.ofState at hx
  rw [Option.filter_eq_some_iff, Option.map_eq_some_iff] at hx
  obtain ⟨⟨it, h5, rfl⟩, _⟩ := hx
  refine ⟨(hs k it h5).1, fun d hd => ?_⟩
  unfold plainOf McWire.held at hd
  simp only [] at hd
  split at hd
  · cases hd
  · cases hd
    exact (hs k it h5).2

section

variable {asks : Nat → List Ask} {chunks : Nat → List Bytes} {cs : Nat → List Req} {ws : Nat → List Bytes}

theorem fresh_ok (hu : c.usecas = true) (hcl : Parsed pw y kind asks chunks cs ws) (hclock : ∀ t i, Fine (kind t) (clock t i)) {t : Nat} {l : Loc} {data : Bytes}
    (h : Fresh pw y (clock t) (cs t) (ws t) data l) : ConnOk (cs t) (ws t) data l := by
  rcases h with h | ⟨args, h1, h2, h3⟩
  · exact Or.inl h
  · obtain ⟨a, _, h5⟩ := forall₂_at (hcl.handled t) h1
    exact Or.inr ⟨args, _, h1, h2, (h5 _ pw ⟨c.usecas, c.noevict, shardIdx c 1⟩ _ hu (hclock _ _) (le_refl _)).1, h3⟩

/-- The rest of the command of a connection serves the rest of its parts. -/
def Rest (env : Spec.Env) (ver : Bytes) (t0 : Int) (clock : Nat → Env) (asks : List Ask) (ps : List Ans) (l : Loc) : Prop :=
  ∀ own used P, l.job = .val (some ⟨own, used, P⟩) → ∃ a, asks[l.done]? = some a ∧ Serving env ver t0 (clock l.done) a ((parts a).drop ps.length) ps own P

theorem fresh_rest (hcl : Parsed pw y kind asks chunks cs ws) (hclock : ∀ t i, Fine (kind t) (clock t i)) {t0 : Int} (hle : ∀ t i, t0 ≤ (clock t i).now) {t : Nat} {l : Loc}
    {data : Bytes} (h : Fresh pw y (clock t) (cs t) (ws t) data l) {env : Spec.Env} (hu : env.usecas = true) : Rest env y.version t0 (clock t) (asks t) [] l := by
  intro own used P hj
  rcases h with h | ⟨args, h1, h2, _⟩
  · rw [h] at hj; cases hj
  · rw [h2] at hj
    simp only [Out.val.injEq, Option.some.injEq, Job.mk.injEq] at hj
    obtain ⟨rfl, rfl, rfl⟩ := hj
    obtain ⟨a, h4, h5⟩ := forall₂_at (hcl.handled t) h1
    exact ⟨a, h4, (h5 _ pw _ _ hu (hclock _ _) (hle _ _)).2⟩

/-- What has been sent is these replies. -/
def Reads (sent : Bytes) (rs : List Ans) : Prop := ∃ bs : List Bytes, sent = bs.flatten ∧ List.Forall₂ Says rs bs

theorem reads_nil : Reads [] [] := ⟨[], rfl, .nil⟩

theorem reads_snoc {out : Bytes} {r : Ans} {rs : List Ans} {sent : Bytes} (h : Says r out) (h' : Reads sent rs) : Reads (sent ++ out) (rs ++ [r]) := by
  obtain ⟨bs, rfl, h2⟩ := h'
  exact ⟨bs ++ [out], by simp, List.rel_append h2 (.cons h .nil)⟩

/-- What is known of the connections `loc` and the shards `mem` between two parts of commands; `S` tells what is known of the replies and the store. -/
def Known (c : Ctx) (n : Nat) (ver : Bytes) (clock : Nat → Nat → Env) (asks : Nat → List Ask) (chunks : Nat → List Bytes) (cs : Nat → List Req) (ws : Nat → List Bytes)
    (now0 : Int) (loc : Nat → Nat × Loc) (mem : Shards) (S : (Nat → List Ans) → (Nat → List Ans) → Store → Prop) : Prop :=
  AllInv c n mem ∧ (∀ t, (loc t).1 = t ∧ ConnOk (cs t) (ws t) (chunks t).flatten (loc t).2) ∧
    (NoWrap n mem → ∃ rs ps m st, S rs ps m ∧ R c n now0 mem st ∧ Agr (shardIdx c n) now0 st m ∧
      ∀ t, (loc t).2.done = (rs t).length ∧ Reads (loc t).2.sent (rs t) ∧
        ((loc t).2.job = .val none → ps t = [] ∧ ∃ tail, Received (ws t) (chunks t).flatten (rs t).length tail) ∧
        Rest ⟨c.usecas, c.noevict, shardIdx c n⟩ ver now0 (clock t) (asks t) (ps t) (loc t).2)

/-- The start. -/
theorem known_start (hu : c.usecas = true) {shs : Shards} (hA : AllInv c n shs) {now0 : Int} {s : Spec.State} (hR : R c n now0 shs s)
    {m0 : Store} (hag : Agr (shardIdx c n) now0 s m0) (hclock : ∀ t i, Fine (kind t) (clock t i)) (hle : ∀ t i, now0 ≤ (clock t i).now)
    (hcl : Parsed pw y kind asks chunks cs ws) {S : (Nat → List Ans) → (Nat → List Ans) → Store → Prop} (hS : S (fun _ => []) (fun _ => []) m0) :
    Known c n y.version clock asks chunks cs ws now0 (fun t => (t, opened (kind t) pw y (clock t) (chunks t))) shs S := by
  have key : ∀ t, (opened (kind t) pw y (clock t) (chunks t)).sent = [] ∧ (opened (kind t) pw y (clock t) (chunks t)).done = 0 ∧
      Fresh pw y (clock t) (cs t) (ws t) (chunks t).flatten (opened (kind t) pw y (clock t) (chunks t)) ∧
      ((opened (kind t) pw y (clock t) (chunks t)).job = .val none → ∃ tail, Received (ws t) (chunks t).flatten 0 tail) := by
    intro t
    by_cases hk : kind t = .http
    · unfold opened
      rw [hk]
      exact start_spec (hcl.http t hk) (hcl.come t)
    · exact advance_spec (pw := pw) (y := y) (clock := clock t) (hcl.framed t hk) (hcl.come t) (l := ⟨chunks t, [], [], 0, .val none⟩) (by simp) (by simp)
  refine ⟨hA, fun t => ⟨rfl, fresh_ok hu hcl hclock (key t).2.2.1⟩, fun _ => ⟨fun _ => [], fun _ => [], _, s, hS, hR, hag, fun t => ?_⟩⟩
  obtain ⟨k1, k2, k3, k4⟩ := key t
  refine ⟨by simpa [opened] using k2, ?_, fun hj => ⟨rfl, ?_⟩, fresh_rest hcl hclock hle k3 hu⟩
  · have : (opened (kind t) pw y (clock t) (chunks t)).sent = [] := k1
    simp only [this]
    exact reads_nil
  · simpa using k4 hj

/-- One part of a command. -/
theorem known_step (hv : c.Valid) (hu : c.usecas = true) (hn : 0 < n) {now0 : Int} (hclock : ∀ t i, Fine (kind t) (clock t i)) (hle : ∀ t i, now0 ≤ (clock t i).now)
    (hcl : Parsed pw y kind asks chunks cs ws) {loc1 : Nat → Nat × Loc} {mem1 mem' : Shards} {S S' : (Nat → List Ans) → (Nat → List Ans) → Store → Prop} {t : Nat} {l' : Nat × Loc}
    (ih : Known c n y.version clock asks chunks cs ws now0 loc1 mem1 S) (htx : Conc.Txn (server c n kind pw y clock addr) (loc1 t) mem1 l' mem')
    (hS : ∀ rs ps rs' ps' ev, ev.who = t → S rs ps ev.before → Next y.version clock asks rs ps ev rs' ps' → S' rs' ps' ev.after) :
    Known c n y.version clock asks chunks cs ws now0 (update loc1 t l') mem' S' := by
  obtain ⟨ih1, ih2, ih3⟩ := ih
  obtain ⟨l1, hrun, hact⟩ := htx
  obtain ⟨it1, it2⟩ := ih2 t
  obtain ⟨⟨u, l⟩, hl⟩ : ∃ x, loc1 t = x := ⟨_, rfl⟩
  rw [hl] at it1 it2 hrun
  simp only [] at it1 it2
  subst it1
  rcases it2 with hidle | ⟨args, P, b1, b2, b5, b3, b4⟩
  · obtain ⟨rfl, rfl⟩ := run_idle hidle hrun
    rcases act_commit hact with ⟨_, _, _, _, hc, _⟩ | ⟨_, _, hc, _⟩ <;> rw [hidle] at hc <;> cases hc
  obtain ⟨d1, d2, d3, d4⟩ := run_part hv hn (hclock u l.done) b2 b5 ih1 hrun
  rcases d4 with ⟨used, Q, i, d4, d6, d5⟩ | d4
  swap
  · rcases act_commit hact with ⟨_, _, _, _, hc, _⟩ | ⟨_, _, hc, _⟩ <;> rw [d4] at hc <;> cases hc
  -- the part is done
  have hQ : (cut (batchedReq args) P).exec c n full (clock u l.done).now 0 mem1 = .val (Q, mem') := by
    rw [d5]
    rcases act_commit hact with ⟨own, used', out, st, e1, _⟩ | ⟨op, k, e1, _⟩
    · rw [d4] at e1
      simp only [Out.val.injEq, Option.some.injEq, Job.mk.injEq] at e1
      obtain ⟨_, _, rfl⟩ := e1
      unfold rest
      split
      · rfl
      · cases batchedReq args <;> rfl
    · rw [d4] at e1
      simp only [Out.val.injEq, Option.some.injEq, Job.mk.injEq] at e1
      obtain ⟨e2, e3, rfl⟩ := e1
      rw [rest, if_pos ⟨e2, e3⟩]
      rfl
  have hpart : NoWrap n mem' → ∃ rs ps m st, S rs ps m ∧
      (∀ t, (loc1 t).2.done = (rs t).length ∧ Reads (loc1 t).2.sent (rs t) ∧
        ((loc1 t).2.job = .val none → ps t = [] ∧ ∃ tail, Received (ws t) (chunks t).flatten (rs t).length tail) ∧
        Rest ⟨c.usecas, c.noevict, shardIdx c n⟩ y.version now0 (clock t) (asks t) (ps t) (loc1 t).2) ∧
      ∃ a b bs m1 r m', (asks u)[(rs u).length]? = some a ∧ (parts a).drop (ps u).length = b :: bs ∧ Drops (clock u l.done).now (keysOf b) m m1 ∧
        Serves y.version (clock u l.done).now (clock u l.done).unix m1 b r m' ∧ R c n now0 mem' st ∧ Agr (shardIdx c n) now0 st m' ∧
        ((bs = [] ∧ ∃ out, Q = .ret (out, false) ∧ Says (whole a (ps u ++ [r])) out) ∨
        (bs ≠ [] ∧ (∃ op k, Q = .call op k) ∧ Serving ⟨c.usecas, c.noevict, shardIdx c n⟩ y.version now0 (clock u l.done) a bs (ps u ++ [r]) (batchedReq args) Q)) := by
    intro hnw
    obtain ⟨rs, ps, m, st, g1, g2, g3, g4⟩ := ih3 (d2 hnw)
    obtain ⟨k1, _, _, k4⟩ := g4 u
    rw [hl] at k1 k4
    obtain ⟨a, q1, q2⟩ := k4 _ _ _ b2
    simp only [] at k1
    obtain ⟨bs, hbs⟩ : ∃ bs, (parts a).drop (ps u).length = bs := ⟨_, rfl⟩
    rw [hbs] at q2
    cases bs with
    | nil => exact absurd q2 id
    | cons b bs =>
      obtain ⟨key, q3, q4, q5⟩ := q2
      rcases prog_exact hv hn (hclock u l.done).now.1 (hclock u l.done).now.2 _ q3.2.1 q3.1 q3.2.2 0 mem1 ih1 with ⟨Q', mem'', w1, w2, w3⟩ | w1
      swap
      · rw [hQ] at w1; cases w1
      rw [hQ] at w1
      simp only [Out.val.injEq, Prod.mk.injEq] at w1
      obtain ⟨rfl, rfl⟩ := w1
      obtain ⟨_, w4⟩ := w3 hnw
      obtain ⟨st', w5, w6⟩ := w4 now0 (live now0 st) (hle _ _) (live_R g2)
      obtain ⟨m1, v1, v2, vl, v3⟩ := before_agr (own := batchedReq args) g3.live (hle u l.done) q4 (live_live now0 st)
      obtain ⟨r, m', v4, v5, v6⟩ := q5 _ m1 _ _ v2 vl v3 w6
      exact ⟨rs, ps, m, st', g1, g4, a, b, bs, m1, r, m', k1 ▸ q1, hbs, v1, v4, w5, v5, v6⟩
  have hnth : ∀ {a b : Ask} {bs : List Ask} {k : Nat}, (parts a).drop k = b :: bs → (parts a)[k]? = some b ∧ (parts a).length = k + 1 + bs.length ∧ (parts a).drop (k + 1) = bs := by
    intro a b bs k hd
    have h1 := congrArg (fun x => x[0]?) hd
    have h2 := congrArg List.length hd
    simp at h1 h2
    refine ⟨h1, by omega, ?_⟩
    rw [← List.drop_drop, hd]
    rfl
  rcases act_commit hact with ⟨own, used', out, st, e1, e2⟩ | ⟨op, k, e1, e2⟩
  · rw [d4] at e1
    simp only [Out.val.injEq, Option.some.injEq, Job.mk.injEq] at e1
    obtain ⟨rfl, rfl, rfl⟩ := e1
    have hl' : l' = (u, if st = true ∨ (kind u).once = true then { l with sent := l.sent ++ out, done := l.done + 1, job := .val none }
        else advance (kind u) pw y (clock u) { l with sent := l.sent ++ out, done := l.done + 1, job := l1.2.job }) := by
      rw [e2, d3]
    have hadv := fun hk => advance_spec (pw := pw) (y := y) (clock := clock u) (hcl.framed u hk) (hcl.come u)
      (l := { l with sent := l.sent ++ out, done := l.done + 1, job := l1.2.job }) b3 b4
    refine ⟨d1, fun v => ?_, fun hnw => ?_⟩
    · by_cases hv' : v = u
      · subst hv'
        rw [update_self, hl']
        refine ⟨rfl, ?_⟩
        simp only []
        split
        · exact Or.inl rfl
        · rename_i hcl'
          exact fresh_ok hu hcl hclock (hadv fun hk => hcl' (Or.inr (once_iff.2 hk))).2.2.1
      · rw [update_of_ne hv']
        exact ih2 v
    · obtain ⟨rs, ps, m, st1, g1, g2, a, b, bs, m1, r, m', q1, q2, q3, q4, q5, q6, q7⟩ := hpart hnw
      rcases q7 with ⟨rfl, out', q8, q9⟩ | ⟨_, ⟨_, _, q8⟩, _⟩
      swap
      · cases q8
      simp only [Prog.ret.injEq, Prod.mk.injEq] at q8
      obtain ⟨rfl, rfl⟩ := q8
      obtain ⟨n1, n2, _⟩ := hnth q2
      obtain ⟨k1, k2, _, _⟩ := g2 u
      rw [hl] at k1 k2
      simp only [] at k1 k2
      rw [k1] at q3 q4
      refine ⟨_, _, m', st1, hS _ _ _ _ ⟨u, b, r, m, m'⟩ rfl g1 (.last q1 n1 (by simpa using n2.symm) q3 q4), q5, q6, fun v => ?_⟩
      by_cases hv' : v = u
      · subst hv'
        rw [update_self, update_self, update_self, hl']
        simp only [Bool.false_eq_true, false_or]
        by_cases hk : kind v = .http
        · rw [if_pos (once_iff.2 hk)]
          refine ⟨by simp [k1], reads_snoc q9 k2, fun _ => ⟨trivial, [], ?_⟩, fun own used P hj => by cases hj⟩
          have hlen : (ws v).length ≤ 1 := by
            rcases hcl.http v hk with ⟨_, h2⟩ | ⟨_, _, _, h2, _⟩ <;> rw [h2] <;> simp
          have hdone : l.done + 1 = (ws v).length := by omega
          have hpre := (hcl.come v).length_le
          have hall : (chunks v).flatten = (ws v).flatten := by
            refine (hcl.come v).eq_of_length (Nat.le_antisymm hpre ?_)
            rw [b4, hdone, List.take_length, List.length_append]
            omega
          rw [List.length_append, List.length_singleton, ← k1]
          exact ⟨by rw [hall, hdone, List.take_length, List.append_nil], b3, Or.inl ⟨hdone, rfl⟩⟩
        rw [if_neg fun hc => hk (once_iff.1 hc)]
        obtain ⟨z1, z2, z3, z4⟩ := hadv hk
        refine ⟨by rw [z2]; simp [k1], by rw [z1]; exact reads_snoc q9 k2, fun hj => ⟨trivial, ?_⟩, fresh_rest hcl hclock hle z3 hu⟩
        have := z4 hj
        simpa [k1] using this
      · rw [update_of_ne hv', update_of_ne hv', update_of_ne hv']
        exact g2 v
  · rw [d4] at e1
    simp only [Out.val.injEq, Option.some.injEq, Job.mk.injEq] at e1
    obtain ⟨o1, rfl, rfl⟩ := e1
    have hl' : l' = (u, { l with job := .val (some ⟨false, false, .call op k⟩) }) := by rw [e2, d3]
    refine ⟨d1, fun v => ?_, fun hnw => ?_⟩
    · by_cases hv' : v = u
      · subst hv'
        rw [update_self, hl']
        exact ⟨rfl, Or.inr ⟨args, .call op k, b1, by rw [o1], d6, b3, b4⟩⟩
      · rw [update_of_ne hv']
        exact ih2 v
    · obtain ⟨rs, ps, m, st1, g1, g2, a, b, bs, m1, r, m', q1, q2, q3, q4, q5, q6, q7⟩ := hpart hnw
      rcases q7 with ⟨_, _, q8, _⟩ | ⟨q8, _, q9⟩
      · cases q8
      obtain ⟨n1, n2, n3⟩ := hnth q2
      obtain ⟨k1, k2, _, _⟩ := g2 u
      rw [hl] at k1 k2
      simp only [] at k1 k2
      rw [k1] at q3 q4
      refine ⟨_, _, m', st1, hS _ _ _ _ ⟨u, b, r, m, m'⟩ rfl g1 (.part q1 n1 ?_ q3 q4), q5, q6, fun v => ?_⟩
      · have := List.length_pos_of_ne_nil q8
        omega
      by_cases hv' : v = u
      · subst hv'
        rw [update_self, update_self, hl']
        refine ⟨k1, k2, fun hj => (by cases hj), fun own used P hj => ?_⟩
        simp only [Out.val.injEq, Option.some.injEq, Job.mk.injEq] at hj
        obtain ⟨rfl, rfl, rfl⟩ := hj
        refine ⟨a, by simp only []; rw [k1]; exact q1, ?_⟩
        rw [List.length_append, List.length_singleton, n3, ← o1]
        exact q9
      · rw [update_of_ne hv', update_of_ne hv']
        exact g2 v

theorem serial_inv (hv : c.Valid) (hu : c.usecas = true) (hn : 0 < n) {shs : Shards} (hA : AllInv c n shs) {now0 : Int} {s : Spec.State} (hR : R c n now0 shs s)
    {m0 : Store} (hag : Agr (shardIdx c n) now0 s m0) (hclock : ∀ t i, Fine (kind t) (clock t i)) (hle : ∀ t i, now0 ≤ (clock t i).now)
    (hcl : Parsed pw y kind asks chunks cs ws) {h : List Nat} {loc : Nat → Nat × Loc} {mem : Shards}
    (hser : Conc.Serial (server c n kind pw y clock addr) (fun t => (t, opened (kind t) pw y (clock t) (chunks t))) shs h loc mem) :
    Known c n y.version clock asks chunks cs ws now0 loc mem (fun rs ps m => ∃ evs, evs.map (·.who) = h ∧ Story y.version clock asks m0 evs rs ps m) := by
  induction hser with
  | nil => exact known_start hu hA hR hag hclock hle hcl ⟨[], rfl, .none⟩
  | snoc _ htx ih => exact known_step hv hu hn hclock hle hcl ih htx fun _ _ _ _ ev hw ⟨evs, h1, h2⟩ h3 => ⟨evs ++ [ev], by rw [List.map_append, h1, ← hw]; rfl, .one h2 h3⟩

/-- A connection in the middle of a command. -/
theorem client_part (hv : c.Valid) (hn : 0 < n) (hclock : ∀ t i, Fine (kind t) (clock t i)) {t : Nat} {l : Loc} {cs : List Req} {ws : List Bytes} {data : Bytes}
    (hok : ConnOk cs ws data l) {H : Nat → Prop} {m m1 : Shards} {l1 : Nat × Loc} (hm : AllInv c n m) (hrun : Conc.Run (server c n kind pw y clock addr) H (t, l) m l1 m1) :
    l1.2.sent = l.sent ∧ ((∃ j, l1.2.job = .val j) ∨ l1.2.job = .abort true) ∧ (l1.2.job = .val none → l.job = .val none) ∧ (NoWrap n m1 → NoWrap n m) := by
  rcases hok with hidle | ⟨args, P, b1, b2, b5, b3, b4⟩
  · obtain ⟨rfl, rfl⟩ := run_idle hidle hrun
    exact ⟨rfl, Or.inl ⟨_, hidle⟩, id, id⟩
  · obtain ⟨_, d2, d3, d4⟩ := run_part hv hn (hclock t l.done) b2 b5 hm hrun
    refine ⟨by rw [d3], ?_, fun hj => ?_, d2⟩
    · rcases d4 with ⟨_, _, _, d4, _⟩ | d4
      · exact Or.inl ⟨_, d4⟩
      · exact Or.inr d4
    · rcases d4 with ⟨_, _, _, d4, _⟩ | d4 <;> rw [hj] at d4 <;> cases d4

/-- The clients, from any state, and the state when they are idle. -/
theorem clients_from (hv : c.Valid) (hu : c.usecas = true) (hn : 0 < n) {shs : Shards} (hA : AllInv c n shs) {now0 : Int} {s : Spec.State} (hR : R c n now0 shs s)
    {m0 : Store} (hag : Agr (shardIdx c n) now0 s m0) (hclock : ∀ t i, Fine (kind t) (clock t i)) (hle : ∀ t i, now0 ≤ (clock t i).now)
    (hcl : Parsed pw y kind asks chunks cs ws) (hp : (server c n kind pw y clock addr).Ok) {h : List Nat} {s' : Conc.State (Nat × Loc) Sh}
    (he : Conc.Exec (server c n kind pw y clock addr) (fun t => (t, opened (kind t) pw y (clock t) (chunks t))) shs s' h) :
    (∀ t, (∃ j, (s'.loc t).2.job = .val j) ∨ (s'.loc t).2.job = .abort true) ∧
    ((∀ t, (s'.loc t).2.job = .val none) → AllInv c n s'.mem) ∧
    (NoWrap n s'.mem → ∃ evs rs ps m, evs.map (·.who) = h ∧ Story y.version clock asks m0 evs rs ps m ∧ (∀ t, Reads (s'.loc t).2.sent (rs t) ∧
      ((s'.loc t).2.job = .val none → ps t = [] ∧ ∃ tail, Received (ws t) (chunks t).flatten (rs t).length tail)) ∧
      ((∀ t, (s'.loc t).2.job = .val none) → ∃ st, R c n now0 s'.mem st ∧ Agr (shardIdx c n) now0 st m)) := by
  obtain ⟨locA, memA, hser, hsim⟩ := Conc.exec_sim hp no_unlock he
  obtain ⟨h1, h2, h3⟩ := serial_inv hv hu hn hA hR hag hclock hle hcl hser
  have part : ∀ t, s'.rel t = false → (s'.loc t).2.sent = (locA t).2.sent ∧ ((∃ j, (s'.loc t).2.job = .val j) ∨ (s'.loc t).2.job = .abort true) ∧
      ((s'.loc t).2.job = .val none → (locA t).2.job = .val none) := by
    intro t hrel
    obtain ⟨m1, hrun, _⟩ := hsim.run t hrel
    obtain ⟨g1, g2, g3, _⟩ := client_part hv hn hclock (t := (locA t).1) (l := (locA t).2) (h2 t).2 h1 hrun
    exact ⟨g1, g2, g3⟩
  have hmem : (∀ t, (s'.loc t).2.job = .val none) → s'.mem = memA := by
    intro hidle
    funext i
    by_cases hfree : ∀ t, ¬ s'.Has t i
    · exact hsim.free i hfree
    · simp only [not_forall, not_not] at hfree
      obtain ⟨t, ht⟩ := hfree
      cases hrel : s'.rel t with
      | true => exact (hsim.rel t hrel).2 i ht
      | false =>
        obtain ⟨_, _, e3⟩ := part t hrel
        obtain ⟨m0, hrun, hm⟩ := hsim.run t hrel
        obtain ⟨_, rfl⟩ := run_idle (e3 (hidle t)) hrun
        exact (hm i ht).symm
  refine ⟨fun t => ?_, fun hidle => hmem hidle ▸ h1, fun hnw => ?_⟩
  · cases hrel : s'.rel t with
    | false => exact (part t hrel).2.1
    | true =>
      rw [(hsim.rel t hrel).1]
      rcases (h2 t).2 with hj | ⟨_, _, _, hj, _⟩ <;> exact Or.inl ⟨_, hj⟩
  · have hnwA : NoWrap n memA := nowrap_back hv hsim h1 (fun t m m1 hm hrun => (client_part hv hn hclock (t := (locA t).1) (l := (locA t).2) (h2 t).2 hm hrun).2.2.2) hnw
    obtain ⟨rs, ps, m, st, ⟨evs, g0, g1⟩, g2, g3, g5⟩ := h3 hnwA
    refine ⟨evs, rs, ps, m, g0, g1, fun t => ?_, fun hidle => ?_⟩
    swap
    · rw [hmem hidle]
      exact ⟨st, g2, g3⟩
    obtain ⟨_, k3, k4, _⟩ := g5 t
    cases hrel : s'.rel t with
    | true =>
      rw [(hsim.rel t hrel).1]
      exact ⟨k3, k4⟩
    | false =>
      obtain ⟨e1, _, e3⟩ := part t hrel
      rw [e1]
      exact ⟨k3, fun hj => k4 (e3 hj)⟩

/-- **C106, C109, C110.**  Any number of RESP, memcache, HTTP and Postgres clients at once on the same cache, each with its own connection and thread, any interleaving of the threads at the locks of the
shards; any commands, any way of writing them, any packets, and clocks that need not agree.  What happens (`evs`) is one part of a command after the other, in the order in which
they are finished: the RESP clients have the server of C98 and the memcache clients that of C100 (but for its listed differences), and both see the same values; a RESP command that
changes a key gives it a new token and keeps or clears its flags; an HTTP client is sent one response, by which a GET has the value, a PUT has stored or was not allowed to, and a
DELETE has removed the key or there was none (C76); a Postgres client past its start is sent for each query the table or the tag that is due (C78), of which MGET reads key by key.
Each command of a client is answered once and in the order sent, and a client with nothing in execution has got the
replies to all commands that have come completely.  (Unless a distance counter of the hash table has wrapped, C01; memory is not low.) -/
theorem all_served (hv : c.Valid) (hu : c.usecas = true) (hn : 0 < n) {shs : Shards} (hA : AllInv c n shs) {now0 : Int} {s : Spec.State} (hR : R c n now0 shs s)
    (hs : ∀ k it, s.dict k = some it → it.value.length ≤ Wire.longest ∧ it.expires < 2 ^ 63) (hver : ∀ b ∈ y.version, 32 ≤ b)
    (hclock : ∀ t i, Fine (kind t) (clock t i)) (hle : ∀ t i, now0 ≤ (clock t i).now) (hcl : Clients pw kind asks chunks ws) (hp : (server c n kind pw y clock addr).Ok)
    {h : List Nat} {s' : Conc.State (Nat × Loc) Sh}
    (he : Conc.Exec (server c n kind pw y clock addr) (fun t => (t, opened (kind t) pw y (clock t) (chunks t))) shs s' h) :
    (∀ t, (∃ j, (s'.loc t).2.job = .val j) ∨ (s'.loc t).2.job = .abort true) ∧
    (NoWrap n s'.mem → ∃ evs rs ps m, evs.map (·.who) = h ∧ Story y.version clock asks (McWire.ofState (shardIdx c n) s) evs rs ps m ∧
      ∀ t, Reads (s'.loc t).2.sent (rs t) ∧ ((s'.loc t).2.job = .val none → ps t = [] ∧ ∃ tail, Received (ws t) (chunks t).flatten (rs t).length tail)) := by
  obtain ⟨cs, hcs⟩ := hcl.parsed hver
  obtain ⟨h1, _, h2⟩ := clients_from hv hu hn hA hR (agr_ofState hs now0) hclock hle hcs hp he
  refine ⟨h1, fun hnw => ?_⟩
  obtain ⟨evs, rs, ps, m, g0, g1, g2, _⟩ := h2 hnw
  exact ⟨evs, rs, ps, m, g0, g1, g2⟩

end

end Verif.Mix
