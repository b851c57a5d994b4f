import Mathlib.Tactic.Common
import Verif.Mix.Parts
import Verif.Cmd.Stats

/-!
C106: memcache commands are served part by part.
-/

namespace Verif.Mix

open Verif.Num Verif.Resp Verif.Cmd Verif.Cache Verif.Shard Verif.Map Function
open Verif.Many (Neat Atomic Single Goods cut One one_ret one_call one_set one_expire neat_append neat_incr neat_ret neat_last neat_cut cut_runs batched_of Shape)

variable {env : Spec.Env} {t0 : Int} {e : Env} {pw : Bytes} {y : Sys}

/-! ### Values and times that can be sent -/

theorem fit_put {m : Store} {k : Bytes} {x : McWire.Held} (h : ∀ k x, m.see t0 k = some x → Wire.Fit (plainOf x)) (hx : Wire.Fit (plainOf x)) :
    ∀ j z, (m.put k x).see t0 j = some z → Wire.Fit (plainOf z) := by
  intro j z hz
  by_cases hj : j = k
  · subst hj
    unfold McWire.Store.see McWire.Store.put at hz
    simp only [update_self] at hz
    rw [Option.filter_eq_some_iff] at hz
    cases hz.1
    exact hx
  · refine h j z ?_
    rw [← hz]
    exact McWire.see_congr (by unfold McWire.Store.put; simp only [update_of_ne hj])

theorem fit_drop {m : Store} {k : Bytes} (h : ∀ k x, m.see t0 k = some x → Wire.Fit (plainOf x)) : ∀ j z, (m.drop k).see t0 j = some z → Wire.Fit (plainOf z) := by
  intro j z hz
  by_cases hj : j = k
  · subst hj
    unfold McWire.Store.see McWire.Store.drop at hz
    simp only [update_self] at hz
    cases hz
  · refine h j z ?_
    rw [← hz]
    exact McWire.see_congr (by unfold McWire.Store.drop; simp only [update_of_ne hj])

theorem deadline_fits {now unix x d : Int} (hi : IsI64 now) (h : mcDeadline now unix x = some d) : d < 2 ^ 63 := by
  unfold mcDeadline at h
  unfold IsI64 at hi
  split at h
  · cases h
  · split at h
    · simp at h; omega
    · split at h
      · simp at h; rw [← h]; unfold fromNow lastTime; omega
      · simp at h; rw [← h]; unfold lastTime; omega

theorem digits_fits {n : Nat} (h : n < 2 ^ 64) : (Wire.digits n).length ≤ Wire.longest := by
  rw [← McWire.u64toa_eq]
  have := u64toa_fits n h
  have : 20 ≤ Wire.longest := by decide
  omega

theorem serves_fit {ver : Bytes} {now unix : Int} {m m' : Store} {a : McWire.Ask} {r : McWire.Answer} (h : McWire.Serves ver now unix m a r m') (hle : t0 ≤ now) (hi : IsI64 now)
    (hlen : ∀ how k v f exp, a = .store how k v f exp → v.length ≤ Wire.longest) (hm : ∀ k x, m.see t0 k = some x → Wire.Fit (plainOf x)) :
    ∀ k x, m'.see t0 k = some x → Wire.Fit (plainOf x) := by
  have old : ∀ {k x}, m.see now k = some x → ∀ d, x.upto = some d → d < 2 ^ 63 := fun hx => (hm _ _ (see_earlier hle hx)).2
  cases h with
  | set _ => exact fit_put hm ⟨hlen _ _ _ _ _ rfl, fun d hd => deadline_fits hi hd⟩
  | add _ _ => exact fit_put hm ⟨hlen _ _ _ _ _ rfl, fun d hd => deadline_fits hi hd⟩
  | replace _ _ => exact fit_put hm ⟨hlen _ _ _ _ _ rfl, fun d hd => deadline_fits hi hd⟩
  | cas _ _ _ => exact fit_put hm ⟨hlen _ _ _ _ _ rfl, fun d hd => deadline_fits hi hd⟩
  | @join front k v c x hx hl _ =>
    refine fit_put hm ⟨?_, old hx⟩
    show (McWire.joined front x.value v).length ≤ _
    unfold McWire.joined
    split <;> rw [List.length_append] <;> omega
  | @up k d n c x hx hc _ => exact fit_put hm ⟨digits_fits (Nat.mod_lt _ (by decide)), old hx⟩
  | @down k d n c x hx hc _ => exact fit_put hm ⟨digits_fits (by have := hc.2; omega), old hx⟩
  | @touch k secs c x hx _ => exact fit_put hm ⟨(hm _ _ (see_earlier hle hx)).1, fun d hd => deadline_fits hi hd⟩
  | delete _ => exact fit_drop hm
  | _ => exact hm

theorem off_fit {now : Int} {m m' : Store} {a : McWire.Ask} {b : Bytes} (h : McWire.Off now m a b m') (hle : t0 ≤ now)
    (hm : ∀ k x, m.see t0 k = some x → Wire.Fit (plainOf x)) : ∀ k x, m'.see t0 k = some x → Wire.Fit (plainOf x) := by
  have old : ∀ {k x}, m.see now k = some x → ∀ d, x.upto = some d → d < 2 ^ 63 := fun hx => (hm _ _ (see_earlier hle hx)).2
  cases h with
  | @below k d n c x hx hc h1 h2 _ => exact fit_put hm ⟨digits_fits (by omega), old hx⟩
  | @odd down k d j c x hx _ _ hj _ => exact fit_put hm ⟨digits_fits hj, old hx⟩
  | _ => exact hm

/-! ### Commands on one key -/

/-- Not `get`. -/
def Alone : McWire.Ask → Prop
  | .get _ _ => False
  | _ => True

theorem parts_alone {a : McWire.Ask} (h : Alone a) : parts (.mc a) = [.mc a] := by cases a <;> first | rfl | exact absurd h id

theorem whole_alone {a : McWire.Ask} (h : Alone a) (r : Ans) : whole (.mc a) [r] = r := by cases a <;> first | rfl | exact absurd h id

theorem Atomic.map' {α β : Type} {f : α → β} {own : Bool} {key : Bytes} {p : Prog α} (h : Atomic own key p) : Atomic own key (p.map f) :=
  ⟨h.1.map, h.2.imp id Single.map⟩

/-- A command on one key is served at once. -/
theorem serving_alone (hu : env.usecas = true) (he : McWire.Fine e) (hle : t0 ≤ e.now) {a : McWire.Ask} {q : Mc.Req} (h1 : Alone a) (hh : McWire.Handled y a q)
    (hlen : ∀ how k v f exp, a = .store how k v f exp → v.length ≤ Wire.longest) {own : Bool} {key : Bytes} (hat : Atomic own key (McWire.handle e pw y ⟨true⟩ q))
    (hk : key ∈ keysOf (.mc a) ∨ (keysOf (.mc a) = [] ∧ ∃ x, McWire.handle e pw y ⟨true⟩ q = .ret x)) :
    Serving env y.version t0 e (.mc a) (parts (.mc a)) [] own (run e pw y (.mc q)) := by
  rw [parts_alone h1]
  have hat' : Atomic own key (run e pw y (.mc q)) := Atomic.map' hat
  refine ⟨key, neat_cut hat', hk.imp id ?_, fun s m Q s' hag _ _ hr => ?_⟩
  · rintro ⟨h2, x, hx⟩
    exact ⟨h2, (x.1, x.2.2), by unfold run; simp only []; rw [hx]; rfl⟩
  · obtain ⟨x, rfl, h4⟩ := cut_runs hat' hr
    obtain ⟨⟨bytes, st, close⟩, h5, rfl⟩ := runs_map h4
    obtain ⟨rfl, m', h6, h7⟩ := (hh e pw he).2.2 env t0 s s' m bytes st close hu hle hag.1 h5
    rcases h7 with ⟨r, h7, h8⟩ | h7
    · exact ⟨.mc r, m', .mc h7, ⟨h6, serves_fit h7 hle he.2.2.1 hlen hag.2⟩, Or.inl ⟨rfl, bytes, rfl, by rw [List.nil_append, whole_alone h1]; exact h8⟩⟩
    · exact ⟨.odd bytes, m', .odd h7, ⟨h6, off_fit h7 hle hag.2⟩, Or.inl ⟨rfl, bytes, rfl, by rw [List.nil_append, whole_alone h1]; exact rfl⟩⟩

/-- The calls of a command on one key. -/
theorem form_atomic (he : McWire.Fine e) {a : McWire.Ask} {q : Mc.Req} (h1 : Alone a) (hf : McWire.Form a q) :
    ∃ key, Atomic (batchedReq (.mc q)) key (McWire.handle e pw y ⟨true⟩ q) ∧ (key ∈ keysOf (.mc a) ∨ (keysOf (.mc a) = [] ∧ ∃ x, McWire.handle e pw y ⟨true⟩ q = .ret x)) := by
  have hlow := he.2.2.2.1
  have one : ∀ {name : Bytes} {fn : Fn} {as : List Bytes} {key : Bytes} (p : Prog (List W)), (name, fn) ∈ cmds →
      call e pw (admin y) fn (name :: as) ⟨true⟩ = p.map (·, ⟨true⟩) → One key p →
      Atomic (batchedReq (.mc (.cmd (name :: as) false))) key (McWire.handle e pw y ⟨true⟩ (.cmd (name :: as) false)) := by
    intro name fn as key p hm hc hp
    unfold McWire.handle
    simp only []
    rw [evcommand_known spells_self hm, hc]
    exact ⟨hp.1.map.map, Or.inr hp.2.map.map⟩
  have two : ∀ {name : Bytes} {fn : Fn} {as : List Bytes} {key : Bytes} (p : Prog (List W)), (name, fn) ∈ cmds →
      call e pw (admin y) fn (name :: as) ⟨true⟩ = p.map (·, ⟨true⟩) →
      (fn = .cmdINCR ∨ fn = .cmdDECR ∨ fn = .cmdINCRBY ∨ fn = .cmdDECRBY ∨ fn = .cmdAPPEND ∨ fn = .cmdPREPEND) → Neat key p →
      Atomic (batchedReq (.mc (.cmd (name :: as) false))) key (McWire.handle e pw y ⟨true⟩ (.cmd (name :: as) false)) := by
    intro name fn as key p hm hc hb hp
    unfold McWire.handle batchedReq
    simp only []
    rw [batched_of spells_self hm, evcommand_known spells_self hm, hc]
    exact ⟨hp.map.map, Or.inl (decide_eq_true hb)⟩
  have by1 : ∀ decr w k t, Neat k (cmdINCRDECRBY e [w, k, t] decr) := by
    intro decr w k t
    unfold cmdINCRDECRBY
    dsimp only
    split
    · split <;> exact neat_ret _ _
    · exact neat_incr ..
  have here : ∀ {k : Bytes}, k ∈ [k] := fun {k} => List.mem_singleton.2 rfl
  cases a with
  | get _ _ => exact absurd h1 id
  | store how k v f exp =>
    obtain ⟨_, opts, rfl⟩ := hf
    exact ⟨k, one _ (by decide : (setName, Fn.cmdSET) ∈ cmds) rfl (one_set hlow ..), Or.inl here⟩
  | join front k v =>
    cases hf
    cases front
    · exact ⟨k, two _ (by decide : (appendName false, Fn.cmdAPPEND) ∈ cmds) rfl (by decide) (neat_append ..), Or.inl here⟩
    · exact ⟨k, two _ (by decide : (appendName true, Fn.cmdPREPEND) ∈ cmds) rfl (by decide) (neat_append ..), Or.inl here⟩
  | delete k =>
    cases hf
    refine ⟨k, one _ (by decide : (delName, Fn.cmdDEL) ∈ cmds) rfl (one_call rfl rfl fun r => ?_), Or.inl here⟩
    unfold Cmd.delLoop
    split <;> exact ⟨_, rfl⟩
  | count down k d =>
    obtain ⟨t, rfl⟩ := hf
    cases down
    · exact ⟨k, two _ (by decide : (incrName false true true, Fn.cmdINCRBY) ∈ cmds) rfl (by decide) (by1 ..), Or.inl here⟩
    · exact ⟨k, two _ (by decide : (incrName true true true, Fn.cmdDECRBY) ∈ cmds) rfl (by decide) (by1 ..), Or.inl here⟩
  | touch k secs =>
    obtain ⟨t, rfl⟩ := hf
    exact ⟨k, one _ (by decide : (expireName, Fn.cmdEXPIRE) ∈ cmds) rfl (one_expire ..), Or.inl here⟩
  | version =>
    cases hf
    have := one (key := []) (as := []) (cmdVERSION y e) (by decide : (([118, 101, 114, 115, 105, 111, 110] : Bytes), Fn.cmdVERSION) ∈ cmds) rfl (one_ret _ _)
    refine ⟨[], this, Or.inr ⟨rfl, ?_⟩⟩
    unfold McWire.handle
    simp only []
    rw [evcommand_known spells_self (by decide : (([118, 101, 114, 115, 105, 111, 110] : Bytes), Fn.cmdVERSION) ∈ cmds)]
    exact ⟨_, rfl⟩
  | other =>
    cases hf
    exact ⟨[], ⟨neat_ret _ _, Or.inr trivial⟩, Or.inr ⟨rfl, _, rfl⟩⟩

/-! ### Several keys -/

/-- What is sent of what is written. -/
def sent (out : List W) : Bytes × Bool := (Mc.written out, decide (W.close ∈ out))

theorem run_get (he : McWire.Fine e) (tokens : Bool) {ks : List Bytes} (hks : ks ≠ []) :
    batchedReq (.mc (.cmd (mcGetName tokens :: ks) false)) = false ∧
      run e pw y (.mc (.cmd (mcGetName tokens :: ks) false)) = (mgetLoop e (if tokens then .mgets else .mget) ks [] 0).map sent := by
  have hmem : (mcGetName tokens, Fn.cmdMGET) ∈ cmds := by cases tokens <;> decide
  refine ⟨?_, ?_⟩
  · unfold batchedReq
    simp only []
    rw [batched_of spells_self hmem]
    decide
  · unfold run McWire.handle
    simp only []
    rw [evcommand_known spells_self hmem]
    show (((cmdMGET e (mcGetName tokens :: ks)).map (·, (⟨true⟩ : ConnSt))).map _).map _ = _
    rw [Verif.Cmd.Prog.map_map, Verif.Cmd.Prog.map_map]
    obtain ⟨k0, ks0, rfl⟩ := List.exists_cons_of_ne_nil hks
    have hkind : (if argeq (mcGetName tokens) [109, 103, 101, 116, 115] then Cmd.Kind.mgets else Cmd.Kind.mget) = if tokens then .mgets else .mget := by
      cases tokens <;> rfl
    unfold cmdMGET
    have hr : ¬ e.proto = .resp := by rw [he.1]; decide
    have hq : ¬ e.proto = .postgres := by rw [he.1]; decide
    simp only [hkind, if_neg hr, if_neg hq]
    rfl

theorem serving_get (he : McWire.Fine e) (hle : t0 ≤ e.now) {tokens : Bool} {all : List Bytes} (ks : List Bytes) (hks : ks ≠ []) (hk : ∀ k ∈ ks, Mc.Key k) {ver : Bytes}
    (its : List (Bytes × Spec.Item)) (hits : ∀ x ∈ its, Mc.Key x.1) (n : Nat) (ps : List Ans)
    (hps : ps.flatMap Ans.found = its.map fun x => McWire.shown tokens x.1 (McWire.held x.2)) :
    Serving env ver t0 e (.mc (.get tokens all)) (ks.map fun k => .mc (.get tokens [k])) ps false
      ((mgetLoop e (if tokens then .mgets else .mget) ks (its.map fun x => W.raw (block tokens x.1 x.2)) n).map sent) := by
  have hp := he.1
  induction ks generalizing its n ps with
  | nil => exact absurd rfl hks
  | cons k ks ih =>
    refine ⟨k, neat_last rfl trivial fun r => ⟨_, rfl⟩, Or.inl (List.mem_singleton.2 rfl), fun s m Q s' hag _ _ hr => ?_⟩
    obtain ⟨s1, r, s2, g1, g2, g3⟩ := runs_call hr
    cases g1
    obtain ⟨rfl, rfl⟩ := runs_ret g3
    obtain ⟨rfl, h4⟩ := load_step g2
    have hg := hag.1.get hle k
    have hadd : ∃ its' : List (Bytes × Spec.Item), (∀ x ∈ its', Mc.Key x.1) ∧
        (its.map fun x => W.raw (block tokens x.1 x.2)) ++ (if r.status = .notfound then (if e.proto = .resp then [W.null] else [])
          else r.shown.flatMap (getEntry e (if tokens then .mgets else .mget))) = (its'.map fun x => W.raw (block tokens x.1 x.2)) ∧
        (ps ++ [Ans.mc (.values tokens ([k].filterMap fun k => (m.see e.now k).map (McWire.shown tokens k)))]).flatMap Ans.found =
          its'.map fun x => McWire.shown tokens x.1 (McWire.held x.2) := by
      rcases h4 with ⟨h4, rfl⟩ | ⟨it, h4, rfl⟩
      · refine ⟨its, hits, ?_, ?_⟩
        · rw [if_pos rfl, if_neg (by rw [hp]; decide), List.append_nil]
        · rw [List.flatMap_append, hps]
          simp [Ans.found, hg, h4]
      · refine ⟨its ++ [(k, it)], ?_, ?_, ?_⟩
        · intro x hx
          rcases List.mem_append.1 hx with hx | hx
          · exact hits x hx
          · rw [List.mem_singleton.1 hx]; exact hk k (by simp)
        · rw [if_neg (by simp), List.map_append]
          congr 1
          cases tokens <;> simp [getEntry, hp, block]
        · rw [List.flatMap_append, hps]
          simp [Ans.found, hg, h4]
    obtain ⟨its', i1, i2, i3⟩ := hadd
    refine ⟨_, m, .mc .get, hag, ?_⟩
    beta_reduce
    rw [i2]
    cases ks with
    | nil =>
      left
      refine ⟨rfl, (its'.map fun x => block tokens x.1 x.2).flatten ++ [69, 78, 68, 13, 10], ?_, ?_⟩
      · unfold mgetLoop
        rw [if_pos hp]
        simp only [Prog.map, sent, Prog.ret.injEq, Prod.mk.injEq]
        refine ⟨?_, ?_⟩
        · unfold Mc.written
          simp only [List.map_append, List.map_map, List.flatten_append]
          congr 1
        · simp
      · show McWire.Spoken (.values tokens _) _
        rw [i3]
        exact McWire.spoken_values tokens i1
    | cons k' ks =>
      right
      refine ⟨by simp, ⟨_, _, rfl⟩, ?_⟩
      exact ih (by simp) (fun j hj => hk j (by simp [hj])) its' i1 _ _ i3

/-- Any memcache command. -/
theorem serving_mc (hu : env.usecas = true) (he : McWire.Fine e) (hle : t0 ≤ e.now) {a : McWire.Ask} {q : Mc.Req} (hh : McWire.Handled y a q) (hf : McWire.Form a q) :
    Shape (batchedReq (.mc q)) (run e pw y (.mc q)) ∧ Serving env y.version t0 e (.mc a) (parts (.mc a)) [] (batchedReq (.mc q)) (run e pw y (.mc q)) := by
  by_cases h1 : Alone a
  · obtain ⟨key, h2, h3⟩ := form_atomic (pw := pw) (y := y) he h1 hf
    refine ⟨⟨h2.1.2.1.map, fun _ => ⟨key, h2.1.map⟩⟩, serving_alone hu he hle h1 hh ?_ h2 h3⟩
    rintro how k v f exp rfl
    exact hf.1
  · cases a with
    | get tokens ks =>
      obtain ⟨h2, h3, rfl⟩ := hf
      obtain ⟨h4, h5⟩ := run_get (pw := pw) (y := y) he tokens h2
      rw [h4, h5]
      refine ⟨⟨Goods.map ?_, fun hc => by cases hc⟩, ?_⟩
      · have : ∀ (ks : List Bytes) out n, Goods (mgetLoop e (if tokens then .mgets else .mget) ks out n) := by
          intro ks
          induction ks with
          | nil => intro out n; trivial
          | cons k ks ih => exact fun out n => ⟨trivial, fun r => ih _ _⟩
        exact this ..
      · exact serving_get he hle ks h2 h3 [] (by simp) 0 [] rfl
    | _ => exact absurd trivial h1

end Verif.Mix
