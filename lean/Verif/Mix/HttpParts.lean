import Mathlib.Tactic.Common
import Verif.Mix.McParts

/-!
C109: HTTP requests are served at once, and the data is parsed as soon as the request is complete.
-/

namespace Verif.Mix

open Verif.Num Verif.Resp Verif.Cmd Verif.Cache Verif.Shard Verif.Map Function
open Verif.Many (Neat Atomic Single Goods cut One one_ret one_call one_set neat_cut cut_runs batched_of Shape)

variable {env : Spec.Env} {t0 : Int} {e : Env} {pw : Bytes} {y : Sys}

/-- The environment of a request: the protocol, memory is not low, times of 64 bits. -/
def FineHttp (e : Env) : Prop := e.proto = .http ∧ 0 < e.now ∧ IsI64 e.now ∧ e.lowmem = false

/-! ### The data -/

/-- When the head has come, the rest is up to the body. -/
theorem parse_head {r : Http.Request} (hr : r.Ok) (pw rest : Bytes) : ∃ uri html head, r.wire = head ++ r.body ∧
    Http.parseHttp pw (head ++ rest) = Http.readBody pw r.method.text uri ⟨r.body.length, html, r.authField⟩ rest := by
  obtain ⟨html, hfold⟩ := Http.header_fields r hr
  obtain ⟨hk, hp, hm1, hm2, hfne, hfs, hb, _, _⟩ := hr
  have huri : ∀ b ∈ (47 : UInt8) :: (r.key ++ if r.params = [] then [] else 63 :: Http.queryText r.params), b ≠ 32 ∧ b ≠ 10 := by
    intro b hb
    rcases List.mem_cons.1 hb with rfl | hb
    · decide
    rcases List.mem_append.1 hb with hb | hb
    · have := (hk.2.2 b hb).1
      constructor <;> (rintro rfl; simp at this)
    · split at hb
      · simp at hb
      · rcases List.mem_cons.1 hb with rfl | hb
        · decide
        · exact Http.queryText_chars hp b hb
  refine ⟨47 :: (r.key ++ if r.params = [] then [] else 63 :: Http.queryText r.params), html, r.method.text ++ [32, 47] ++ r.key ++
    (if r.params = [] then [] else 63 :: Http.queryText r.params) ++ [32, 72, 84, 84, 80, 47, 49, 46, r.minor, 13, 10] ++ (r.fields.map Http.Field.text).flatten ++ [13, 10], rfl, ?_⟩
  have hwire : r.method.text ++ [32, 47] ++ r.key ++ (if r.params = [] then [] else 63 :: Http.queryText r.params) ++ [32, 72, 84, 84, 80, 47, 49, 46, r.minor, 13, 10] ++
      (r.fields.map Http.Field.text).flatten ++ [13, 10] ++ rest = r.method.text ++ 32 :: ((47 :: (r.key ++ if r.params = [] then [] else 63 :: Http.queryText r.params)) ++
      32 :: ([72, 84, 84, 80, 47, 49, 46, r.minor, 13] ++ 10 :: ((r.fields.map Http.Field.text).flatten ++ [13, 10] ++ rest))) := by
    simp
  have hmeth : ∀ b ∈ r.method.text, b ≠ 32 ∧ b ≠ 10 := by cases r.method <;> decide
  have hproto : Http.protoOk [72, 84, 84, 80, 47, 49, 46, r.minor, 13] = true := by
    have e1 : (48 : UInt8) ≤ r.minor := by rw [UInt8.le_iff_toNat_le]; simpa using hm1
    have e2 : r.minor ≤ 57 := by rw [UInt8.le_iff_toNat_le]; simpa using hm2
    have e3 : r.minor.toNat - 48 < 10 := by omega
    unfold Http.protoOk
    simp [e1, e2]
    omega
  unfold Http.parseHttp
  rw [hwire, Http.word_exact _ _ hmeth]
  simp only []
  rw [Http.word_exact _ _ huri]
  simp only []
  rw [Http.upTo_exact 10 _ _ (by
    intro b hb
    simp only [List.mem_cons, List.not_mem_nil, or_false] at hb
    rcases hb with rfl | rfl | rfl | rfl | rfl | rfl | rfl | rfl | rfl
    all_goals first | decide | (intro hc; rw [hc] at hm1; simp at hm1))]
  simp only [hproto, Bool.not_true, Bool.false_eq_true, if_false]
  have hlen : r.fields.length ≤ ((r.fields.map Http.Field.text).flatten ++ [13, 10] ++ rest).length := by
    have : ∀ fs : List Http.Field, fs.length ≤ (fs.map Http.Field.text).flatten.length := by
      intro fs
      induction fs with
      | nil => simp
      | cons f fs ih => simp [Http.Field.text] at ih ⊢; omega
    have := this r.fields
    simp only [List.length_append]
    omega
  rw [Http.headers_exact r.fields hfne hfs _ hlen _ _ _ hfold]

/-- As long as some of the body is missing nothing is done. -/
theorem parse_wait {r : Http.Request} (hr : r.Ok) {p : Bytes} (hp : p <+: r.wire) (hne : p ≠ r.wire) (hl : r.wire.length ≤ p.length + r.body.length) :
    parseOf pw .http p = .more := by
  obtain ⟨_, _, head, h1, _⟩ := parse_head hr pw []
  have h3 : head <+: p := List.prefix_of_prefix_length_le (h1 ▸ List.prefix_append head r.body) hp (by
    have := congrArg List.length h1
    rw [List.length_append] at this
    omega)
  obtain ⟨rest, rfl⟩ := h3
  obtain ⟨uri, html, head', h4, h5⟩ := parse_head hr pw rest
  have h6 : head' = head := by
    rw [h1] at h4
    exact ((List.append_inj_left' h4 rfl)).symm
  subst h6
  have hlt : rest.length < r.body.length := by
    have e1 := hp.length_le
    rw [h1, List.length_append, List.length_append] at e1
    rcases Nat.lt_or_ge rest.length r.body.length with h | h
    · exact h
    · exact absurd (hp.eq_of_length (by rw [h1, List.length_append, List.length_append]; omega)) hne
  unfold parseOf
  simp only []
  rw [h5]
  unfold Http.readBody
  rw [if_pos hlt]

theorem parse_whole {r : Http.Request} (hr : r.Ok) (ha : r.Allowed pw) : parseOf pw .http r.wire = .got (.http r.command, r.wire.length) := by
  have := (Http.http_request_exact r hr pw []).1 ha
  rw [List.append_nil] at this
  unfold parseOf
  simp only []
  rw [this]

/-! ### The commands -/

theorem refused_http {now : Int} {how : McWire.How} {ttl : Option Int} {flags : Option Nat} {xx nx : Bool} (hn : nx = true ↔ how = .add) (hx : xx = true ↔ how = .replace)
    (old : Option Spec.Item) : Refused true (Http.asked now (tokenOf how) ttl flags xx nx) old ↔ ¬ Allows how (old.map McWire.held) := by
  obtain ⟨_, _, h3, h4, _, _⟩ := Http.asked_facts now (tokenOf how) ttl flags xx nx
  have ht : Cmd.tokenOf (Http.asked now (tokenOf how) ttl flags xx nx) = tokenOf how := by
    unfold Http.asked Cmd.tokenOf
    cases tokenOf how <;> cases ttl <;> cases flags <;> cases xx <;> cases nx <;> rfl
  unfold Refused
  rw [ht]
  clear ht
  generalize Http.asked now (tokenOf how) ttl flags xx nx = os at *
  cases old with
  | none => cases how <;> simp [h3, hx, tokenOf, Allows]
  | some it => cases how <;> simp [h4, hn, tokenOf, Allows, McWire.held]

theorem held_ttl {now : Int} {v : Bytes} {f k : Nat} {ttl : Option Int} (h0 : 0 < now) (ht : ∀ x, ttl = some x → 0 < x) :
    McWire.held ⟨v, (ttl.map fun x => fromNow now x 1000000000).getD 0, f, k⟩ = ⟨v, f, ttl.map fun x => min (now + x * 1000000000) (2 ^ 63 - 1), k⟩ := by
  unfold McWire.held
  simp only [McWire.Held.mk.injEq, true_and, and_true]
  cases ttl with
  | none => simp
  | some x =>
    have := ht x rfl
    show (if fromNow now x 1000000000 = 0 then none else some (fromNow now x 1000000000)) = some (fromNow now x 1000000000)
    rw [if_neg (by unfold fromNow lastTime; omega)]

/-- What the command of a request does. -/
theorem http_done (hu : env.usecas = true) (he : FineHttp e) (hle : t0 ≤ e.now) {a : HttpAsk} {r : Http.Request} (hq : Requests a r) {s s' : Spec.State} {m : Store} {out : List W}
    (h : McWire.Agrees env.grp t0 s m) (hx : Executes env alone false e pw (admin y) r.command s out s') :
    ∃ code body m', Fetches e.now m a code body m' ∧ McWire.Agrees env.grp t0 s' m' ∧ out = [.http code body] := by
  obtain ⟨hp, h0, hnow, hlow⟩ := he
  have htk : ∀ i, s.tok i ≤ s'.tok i := by
    obtain ⟨_, hx⟩ := hx
    exact McWire.runs_tok hx
  have hg := h.get hle r.key
  cases hq with
  | get hm =>
    unfold Http.Request.command at hx
    rw [hm] at hx
    replace hx : Executes env alone false e pw (admin y) [getName, r.key] s out s' := hx
    rw [executes_iff spells_self (by decide : (getName, Fn.cmdGET) ∈ cmds) rfl] at hx
    unfold cmdGET at hx
    obtain ⟨s1, rr, s2, h1, h2, h3⟩ := runs_call hx
    cases h1
    rw [if_neg (show ¬ e.proto = .postgres by rw [hp]; decide)] at h3
    obtain ⟨rfl, ⟨h4, rfl⟩ | ⟨it, h4, rfl⟩⟩ := load_step h2
    · rw [if_pos rfl] at h3
      obtain ⟨rfl, rfl⟩ := runs_ret h3
      rw [h4] at hg
      rw [if_pos hp]
      exact ⟨_, _, m, .getMissing hg, h, rfl⟩
    · rw [if_neg (by simp)] at h3
      obtain ⟨rfl, rfl⟩ := runs_ret h3
      rw [h4] at hg
      exact ⟨_, _, m, .get hg, h, by simp [getEntry, hp, McWire.held]⟩
  | delete hm =>
    unfold Http.Request.command at hx
    rw [hm] at hx
    replace hx : Executes env alone false e pw (admin y) [delName, r.key] s out s' := hx
    rw [executes_iff spells_self (by decide : (delName, Fn.cmdDEL) ∈ cmds) rfl] at hx
    unfold cmdDEL Cmd.delLoop Cmd.delLoop at hx
    simp only [hp] at hx
    obtain ⟨s1, rr, s2, h1, h2, h3⟩ := runs_call hx
    cases h1
    obtain ⟨rfl, rfl⟩ := runs_ret h3
    cases hd : s.dict.get e.now r.key with
    | none =>
      rw [hd] at hg
      simp [Spec.Step, hd] at h2
      obtain ⟨rfl, rfl⟩ := h2
      exact ⟨_, _, m, .deleteMissing hg, h, rfl⟩
    | some it =>
      rw [hd] at hg
      simp [Spec.Step, hd] at h2
      obtain ⟨rfl, rfl⟩ := h2
      exact ⟨_, _, m.drop r.key, .delete (by rw [hg]; simp), h.drop (update_self _ _ _) (fun j hj => update_of_ne hj _ _) htk, rfl⟩
  | @put _ how flags ttl hm ho hn hxx =>
    obtain ⟨wss, hw, hflat⟩ := Http.asks_written (now := e.now) ho
    unfold Http.Request.command at hx
    rw [hm] at hx
    simp only [] at hx
    have hcmd : [[115, 101, 116], r.key, r.body] ++ Http.opt [99, 97, 115] (r.param [[99, 97, 115]]) ++
        Http.opt [101, 120] (r.param [[101, 120], [116, 116, 108]]) ++ Http.opt [102, 108, 97, 103, 115] (r.param [[102, 108, 97, 103, 115]]) ++
        (if r.has [120, 120] then [[120, 120]] else []) ++ (if r.has [110, 120] then [[110, 120]] else []) = setName :: r.key :: r.body :: wss.flatten := by
      rw [← hflat]; simp [setName]
    rw [hcmd] at hx
    have hpm : e.proto ≠ .memcache := by rw [hp]; decide
    have hd := deadlines_pos h0 hw
    rw [executes_iff spells_self (by decide : (setName, Fn.cmdSET) ∈ cmds) rfl,
      cmdSET_opts (hw.imp fun _ _ h => written_reads hpm hnow h0 h) (flags_ok hw) hd] at hx
    obtain ⟨hget, hkeep, hxx', hnx', hdl, hfl⟩ := Http.asked_facts e.now (tokenOf how) ttl flags (r.has [120, 120]) (r.has [110, 120])
    have href := refused_http (now := e.now) (ttl := ttl) (flags := flags) hn hxx (s.dict.get e.now r.key)
    have htt : ∀ x, ttl = some x → 0 < x := by
      rintro x rfl
      obtain ⟨_, _, _, h⟩ := ho.sec
      exact h
    generalize Http.asked e.now (tokenOf how) ttl flags (r.has [120, 120]) (r.has [110, 120]) = os at *
    have hc2 : ¬ ((collect os).xx = true ∧ (collect os).nx = true) := by
      simp only [collect, decide_eq_true_eq]
      rw [hxx', hnx', hn, hxx]
      rintro ⟨h1, h2⟩
      rw [h1] at h2
      cases h2
    rw [if_neg (by simp [collect, hkeep]), if_neg hc2] at hx
    have hgf : (collect os).get = false := by simp [collect, hget]
    have hfresh : out = [.http 200 stored] → McWire.Fresh env r.key s s' := by
      intro hout
      refine McWire.last_fresh (key := r.key) (P := fun o => o = [W.http 200 stored]) (b := False) hu ?_ False.elim (le_refl _) hout hx
      unfold execSET
      intro q hq
      refine ⟨rfl, ?_⟩
      by_contra hst
      unfold setReply at hq
      rw [if_neg (by simp [hgf] : ¬ (collect os).get = true)] at hq
      simp only [hp, if_neg hst] at hq
      split_ifs at hq
      · have := congrArg List.getLast? hq
        simp at this
      all_goals simp [stored] at hq
    unfold execSET at hx
    obtain ⟨s1, rr, s2, h1, h2, h3⟩ := runs_call hx
    cases h1
    obtain ⟨h4, rfl⟩ := runs_ret h3
    rcases set_step hd (fun it hit => visible_nonneg h0 hit) h2 with ⟨a1, _, _⟩ | ⟨a1, rfl, a3⟩ | ⟨a1, a2, a3, c, a4⟩
    · simp [hlow] at a1
    · rw [hu, href, ← hg] at a1
      refine ⟨404, notFound, m, .putNot a1, h.same a3 htk, ?_⟩
      rw [h4, setReply, if_neg (by split <;> simp), hgf, if_neg (by simp)]
      simp only [hp]
      rw [if_neg (by split <;> simp)]
      rfl
    · have hout : out = [.http 200 stored] := by
        rw [h4, setReply, a2, if_neg (by split <;> simp), hgf, if_neg (by simp)]
        simp only [hp]
        rw [if_pos (by split <;> simp)]
        rfl
      rw [hu, href, ← hg, not_not] at a1
      have hnd : newDeadline os (s.dict.get e.now r.key) = ((ttl.map fun x => fromNow e.now x 1000000000).getD 0) := by
        unfold newDeadline
        cases s.dict.get e.now r.key with
        | none => exact hdl
        | some it => simp only []; rw [if_neg hkeep]; exact hdl
      rw [hfl, hnd] at a4
      rcases a4 with ⟨a4, a5⟩ | ⟨a4, _⟩
      swap
      · rw [hlow] at a4; cases a4
      obtain ⟨b1, b2⟩ := McWire.put_fresh h a4 a5 htk (hfresh hout)
      rw [held_ttl h0 htt] at b2
      exact ⟨200, stored, _, .put a1 b1, b2, hout⟩

theorem fetches_fit {now : Int} {m m' : Store} {a : HttpAsk} {code : Nat} {body : Bytes} (h : Fetches now m a code body m') (hlen : ∀ how k v f ttl, a = .put how k v f ttl → v.length ≤ Wire.longest)
    (hm : ∀ k x, m.see t0 k = some x → Wire.Fit (plainOf x)) : ∀ k x, m'.see t0 k = some x → Wire.Fit (plainOf x) := by
  cases h with
  | @put how k v flags ttl c _ _ =>
    refine fit_put hm ⟨hlen _ _ _ _ _ rfl, fun d hd => ?_⟩
    cases ttl with
    | none => cases hd
    | some x =>
      simp only [plainOf, Option.map_some, Option.some.injEq] at hd
      omega
  | delete _ => exact fit_drop hm
  | _ => exact hm

/-- Any request. -/
theorem serving_http (hu : env.usecas = true) (he : FineHttp e) (hle : t0 ≤ e.now) {a : HttpAsk} {r : Http.Request} (hr : r.Ok) (hq : Requests a r) :
    Shape (batchedReq (.http r.command)) (run e pw y (.http r.command)) ∧
      Serving env y.version t0 e (.http a) (parts (.http a)) [] (batchedReq (.http r.command)) (run e pw y (.http r.command)) := by
  have hat : Atomic (batchedReq (.http r.command)) r.key (evcommand e pw (admin y) r.command ⟨true⟩) := by
    have one : ∀ {name : Bytes} {fn : Fn} {as : List Bytes} (p : Prog (List W)), (name, fn) ∈ cmds →
        call e pw (admin y) fn (name :: as) ⟨true⟩ = p.map (·, ⟨true⟩) → One r.key p →
        Atomic (batchedReq (.http (name :: as))) r.key (evcommand e pw (admin y) (name :: as) ⟨true⟩) := by
      intro name fn as p hm hc hp
      rw [evcommand_known spells_self hm, hc]
      exact ⟨hp.1.map, Or.inr hp.2.map⟩
    cases hq with
    | get hm =>
      unfold Http.Request.command
      rw [hm]
      refine one _ (by decide : (([103, 101, 116] : Bytes), Fn.cmdGET) ∈ cmds) rfl (one_call rfl trivial fun rr => ?_)
      split <;> split <;> exact ⟨_, rfl⟩
    | delete hm =>
      unfold Http.Request.command
      rw [hm]
      refine one _ (by decide : (([100, 101, 108] : Bytes), Fn.cmdDEL) ∈ cmds) rfl (one_call rfl rfl fun rr => ?_)
      unfold Cmd.delLoop
      split <;> exact ⟨_, rfl⟩
    | put hm =>
      unfold Http.Request.command
      rw [hm]
      simp only [List.cons_append]
      exact one _ (by decide : (([115, 101, 116] : Bytes), Fn.cmdSET) ∈ cmds) rfl (one_set he.2.2.2 ..)
  have hat' : Atomic (batchedReq (.http r.command)) r.key (run e pw y (.http r.command)) := Atomic.map' hat
  have hkey : a.key = r.key := by cases hq <;> rfl
  refine ⟨⟨hat'.1.2.1, fun _ => ⟨_, hat'.1⟩⟩, r.key, neat_cut hat', Or.inl (by simp [keysOf, hkey]), fun s m Q s' hag _ _ hrun => ?_⟩
  obtain ⟨x, rfl, h4⟩ := cut_runs hat' hrun
  obtain ⟨⟨out, st⟩, h5, rfl⟩ := runs_map h4
  obtain ⟨code, body, m', h6, h7, rfl⟩ := http_done (y := y) hu he hle hq hag.1 ⟨st, h5⟩
  refine ⟨.http code body, m', .http h6, ⟨h7, fetches_fit h6 ?_ hag.2⟩, Or.inl ⟨rfl, _, rfl, Http.read_one code body⟩⟩
  rintro how k v f ttl rfl
  cases hq
  have := hr.2.2.2.2.2.2.1
  exact this

/-! ### The next request -/

/-- One request, whose head comes in one packet. -/
theorem fetch_one {parse : Bytes → PR (Req × Nat)} {q : Req} {w : Bytes} (hw : w ≠ []) (hgot : parse w = .got (q, w.length)) (chunks : List Bytes) (packet : Bytes)
    (hmore : ∀ j, packet ++ (chunks.take j).flatten ≠ [] → packet ++ (chunks.take j).flatten ≠ w → parse (packet ++ (chunks.take j).flatten) = .more)
    (hp : packet ++ chunks.flatten <+: w) :
    (fetch parse chunks packet = none ∧ packet ++ chunks.flatten ≠ w) ∨
      ∃ chunks', fetch parse chunks packet = some (q, [], chunks') ∧ chunks'.flatten = [] ∧ packet ++ chunks.flatten = w := by
  have now : packet ≠ w → (if packet = [] then PR.more else parse packet) = .more := by
    intro hne
    split
    · rfl
    · have := hmore 0
      simp only [List.take_zero, List.flatten_nil, List.append_nil] at this
      exact this ‹_› hne
  by_cases hpw : packet = w
  · right
    subst hpw
    have hnil : chunks.flatten = [] := by
      have := hp.length_le
      rw [List.length_append] at this
      exact List.length_eq_zero_iff.1 (by omega)
    refine ⟨chunks, ?_, hnil, by rw [hnil, List.append_nil]⟩
    cases chunks <;> (rw [fetch, if_neg hw, hgot]; simp)
  · induction chunks generalizing packet with
    | nil =>
      left
      rw [fetch, now hpw]
      exact ⟨rfl, by simpa using hpw⟩
    | cons c chunks ih =>
      have e1 : packet ++ (c :: chunks).flatten = (packet ++ c) ++ chunks.flatten := by simp
      have e2 : fetch parse (c :: chunks) packet = fetch parse chunks (packet ++ c) := by rw [fetch, now hpw]
      have hm' : ∀ j, (packet ++ c) ++ (chunks.take j).flatten ≠ [] → (packet ++ c) ++ (chunks.take j).flatten ≠ w → parse ((packet ++ c) ++ (chunks.take j).flatten) = .more := by
        intro j
        have := hmore (j + 1)
        simpa using this
      rw [e1] at hp ⊢
      rw [e2]
      by_cases hpw' : packet ++ c = w
      · right
        subst hpw'
        have hnil : chunks.flatten = [] := by
          have := hp.length_le
          rw [List.length_append] at this
          exact List.length_eq_zero_iff.1 (by omega)
        refine ⟨chunks, ?_, hnil, by rw [hnil, List.append_nil]⟩
        cases chunks <;> (rw [fetch, if_neg hw, hgot]; simp)
      · refine ih (packet ++ c) hm' hp ?_ hpw'
        intro hne
        split
        · rfl
        · have := hm' 0
          simp only [List.take_zero, List.flatten_nil, List.append_nil] at this
          exact this ‹_› hne

/-- The first packet tells the protocol. -/
theorem sniff_http {r : Http.Request} (hr : r.Ok) {p : Bytes} (hp : p <+: r.wire) (hl : r.wire.length ≤ p.length + r.body.length) : sniff p = .got (some .http) := by
  obtain ⟨L, t, h1, h2, h3⟩ : ∃ L t, r.wire = L ++ [32, 72, 84, 84, 80, 47, 49, 46, r.minor, 13] ++ 10 :: t ++ r.body ∧
      (∀ b ∈ L ++ [32, 72, 84, 84, 80, 47, 49, 46, r.minor, 13], b ≠ 10) ∧ ∃ b L', L = b :: L' ∧ b ≠ 42 ∧ b ≠ 0 := by
    obtain ⟨hk, hq, hm1, _⟩ := hr
    refine ⟨r.method.text ++ [32, 47] ++ r.key ++ (if r.params = [] then [] else 63 :: Http.queryText r.params), (r.fields.map Http.Field.text).flatten ++ [13, 10], ?_, ?_, ?_⟩
    · simp [Http.Request.wire]
    · intro b hb
      simp only [List.mem_append] at hb
      rcases hb with (((hb | hb) | hb) | hb) | hb
      · revert b; cases r.method <;> decide
      · revert b; decide
      · have := (hk.2.2 b hb).1
        rintro rfl
        simp at this
      · split at hb
        · simp at hb
        · rcases List.mem_cons.1 hb with rfl | hb
          · decide
          · exact (Http.queryText_chars hq b hb).2
      · simp only [List.mem_cons, List.not_mem_nil, or_false] at hb
        rcases hb with rfl | rfl | rfl | rfl | rfl | rfl | rfl | rfl | rfl | rfl
        all_goals first | decide | (intro hc; rw [hc] at hm1; simp at hm1)
    · cases r.method
      · exact ⟨71, _, rfl, by decide, by decide⟩
      · exact ⟨80, _, rfl, by decide, by decide⟩
      · exact ⟨68, _, rfl, by decide, by decide⟩
  obtain ⟨b, L', hL, hb1, hb2⟩ := h3
  have h4 : L ++ [32, 72, 84, 84, 80, 47, 49, 46, r.minor, 13] ++ 10 :: t <+: p := List.prefix_of_prefix_length_le (h1 ▸ List.prefix_append _ r.body) hp (by
    have := congrArg List.length h1
    rw [List.length_append] at this
    omega)
  obtain ⟨rest, rfl⟩ := h4
  have hlen : lineLen (L ++ [32, 72, 84, 84, 80, 47, 49, 46, r.minor, 13] ++ 10 :: t ++ rest) = L.length + 11 := by
    unfold lineLen
    have : (L ++ [32, 72, 84, 84, 80, 47, 49, 46, r.minor, 13] ++ 10 :: t ++ rest).findIdx? (· = 10) = some (L ++ [32, 72, 84, 84, 80, 47, 49, 46, r.minor, 13]).length := by
      rw [List.append_assoc, List.findIdx?_append]
      have h1 : (L ++ [32, 72, 84, 84, 80, 47, 49, 46, r.minor, 13]).findIdx? (· = 10) = none := by
        rw [List.findIdx?_eq_none_iff]
        intro x hx
        simpa using h2 x hx
      rw [h1]
      simp [List.findIdx?_cons]
    rw [this]
    simp
  have hhead : (L ++ [32, 72, 84, 84, 80, 47, 49, 46, r.minor, 13] ++ 10 :: t ++ rest).head? = some b := by rw [hL]; rfl
  unfold sniff
  rw [hhead, if_neg (by simpa using hb1), if_neg (by simpa using hb2)]
  simp only []
  rw [hlen, if_pos]
  refine ⟨by omega, ?_, ?_, ?_⟩
  · rw [show L.length + 11 - 11 = L.length by omega, List.append_assoc, List.append_assoc, List.drop_left]
    rfl
  · rw [show L.length + 11 - 4 = L.length + 7 by omega, List.append_assoc, List.append_assoc, List.getElem?_append_right (by omega)]
    simp
  · rw [show L.length + 11 - 2 = L.length + 9 by omega, List.append_assoc, List.append_assoc, List.getElem?_append_right (by omega)]
    simp

end Verif.Mix
