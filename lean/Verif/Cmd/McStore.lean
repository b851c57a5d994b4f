import Mathlib.Tactic.Common
import Mathlib.Tactic.Linarith
import Verif.Cmd.SetOpt
import Verif.Cmd.Keys
import Verif.Mc.Props

/-!
C37, second half: what the command parsed from a memcache storage request stores.  C39: noreply.
-/

namespace Verif.Cmd

open Verif.Num Verif.Resp Verif.Cache Function

/-! ### Specification -/

/-- Expiry of a memcache item, as the protocol defines it: 0 is never, negative is at once, up to 30 days is relative, more is a Unix time;
as a time of the cache's clock. -/
def mcDeadline (now unix exp : Int) : Option Int :=
  if exp = 0 then none
  else if exp < 0 then some now
  else if exp ≤ 30 * 24 * 60 * 60 then some (fromNow now exp 1000000000)
  else some (min (now + max 0 (min (exp * 1000000000) lastTime - unix)) lastTime)

/-- What a storage request asks for. -/
def mcOpts (r : Mc.Store) (now unix : Int) (f : Nat) (exp : Int) (c : Nat) : List Opt :=
  (if f = 0 ∧ r.flags = [48] then [] else [.flags f]) ++ (mcDeadline now unix exp).toList.map .expire ++
    (match r.verb with | .add => [.nx] | .replace => [.xx] | .cas => [.cas c] | _ => [])

/-- Neither append nor prepend. -/
def Stores (v : Mc.Verb) : Prop := v = .set ∨ v = .add ∨ v = .replace ∨ v = .cas

/-! ### Reading the options -/

variable {env : Spec.Env} {I : Spec.State → Spec.State → Prop} {oom : Bool} {e : Env} {pw : Bytes}
  {other : Fn → Env → List Bytes → Prog (List W)}

theorem natText_zero {t : Bytes} {n : Nat} (h : Mc.NatText t n) (ht : t = [48]) : n = 0 := by
  subst ht; rw [← h.2.2.2]; decide

theorem expText_zero {t : Bytes} {x : Int} (h : Mc.ExpText t x) : t = [48] ↔ x = 0 := by
  rcases h with ⟨n, h1, h2, h3⟩ | ⟨d, n, h1, h2, h3, h4⟩
  · constructor
    · intro ht; have := natText_zero h1 ht; omega
    · intro hx; exact h3 (by omega)
  · constructor
    · intro ht; rw [h1] at ht; simp at ht
    · intro hx; omega

theorem expText_parse {t : Bytes} {x : Int} (h : Mc.ExpText t x) (hx : IsI64 x) : parseI64 t = some x := by
  unfold IsI64 at hx
  rcases h with ⟨n, h1, h2, _⟩ | ⟨d, n, h1, h2, h3, h4⟩
  · rw [h2]; exact h1.i64 (by omega)
  · rw [parseI64_iff]
    right
    have hl := h2.2.1
    refine ⟨by rw [h1]; simp; omega, ⟨[], [45], d, by rw [h1]; simp, by simp, h2.1, h2.2.2.1, Or.inr ⟨rfl, ?_⟩⟩, hx.1, hx.2⟩
    rw [h3, h2.2.2.2]

theorem parseEx_mc {t : Bytes} {x : Int} (hp : e.proto = .memcache) (hnow : IsI64 e.now) (h0 : 0 < e.now) (hunix : IsI64 e.unix) (hu0 : 0 ≤ e.unix)
    (hpx : parseI64 t = some x) (hx : IsI64 x) (hne : x ≠ 0) :
    ∃ d, mcDeadline e.now e.unix x = some d ∧ 0 < d ∧ parseEx e .ex t = .ok (some d) := by
  have hh : hour * 24 * 30 = 2592000000000000 := by decide
  unfold parseEx mcDeadline
  rw [hpx]
  simp only [if_neg hne]
  have hadd0 : addClamp e.now 0 = some e.now := by
    rw [addClamp_exact _ _ hnow (by unfold IsI64; decide), Int.add_zero, (saturate_spec _).2.1 hnow]
  by_cases hneg : x < 0
  · refine ⟨e.now, by rw [if_pos hneg], h0, ?_⟩
    rw [if_pos (by omega), if_pos hp]
    unfold expirySeconds
    rw [if_neg (by rw [hh]; omega), hadd0]
  · rw [if_neg hneg, if_neg (show ¬ x ≤ 0 by omega)]
    have hpos : 0 < x * 1000000000 := by omega
    unfold IsI64 at hnow hunix
    by_cases hle : x ≤ 30 * 24 * 60 * 60
    · refine ⟨_, by rw [if_pos hle], by unfold fromNow lastTime; omega, ?_⟩
      have := deadline_eq (now := e.now) hnow h0 (by decide : (0 : Int) < second) (by unfold IsI64; decide) hx (by omega)
      rw [show second = 1000000000 from rfl] at this ⊢
      rw [← this]
      congr 1
      rw [mulClamp_exact _ _ hx (by unfold IsI64; decide)]
      simp only [Option.bind_some]
      unfold expirySeconds
      have hs : saturate (x * 1000000000) = x * 1000000000 := (saturate_spec _).2.1 (by unfold IsI64; omega)
      rw [if_neg (by rw [hh, hs]; omega)]
    · refine ⟨_, by rw [if_neg hle], by unfold lastTime; omega, ?_⟩
      congr 1
      rw [show second = 1000000000 from rfl, mulClamp_exact _ _ hx (by unfold IsI64; decide)]
      simp only [Option.bind_some]
      unfold expirySeconds
      have hs : saturate (x * 1000000000) = min (x * 1000000000) lastTime := saturate_nonneg (by omega)
      rw [hs, if_pos ⟨hp, by rw [hh]; unfold lastTime; omega⟩]
      have hm : (if min (x * 1000000000) lastTime > e.unix then min (x * 1000000000) lastTime - e.unix else 0) =
          max 0 (min (x * 1000000000) lastTime - e.unix) := by split <;> omega
      rw [hm, addClamp_exact _ _ hnow (by unfold IsI64 lastTime; omega)]
      rw [saturate_nonneg (by unfold lastTime; omega)]

theorem mc_command_reads {r : Mc.Store} {f : Nat} {x : Int} {c : Nat} (hok : r.Ok f x c) (hv : Stores r.verb) (hp : e.proto = .memcache)
    (hnow : IsI64 e.now) (h0 : 0 < e.now) (hunix : IsI64 e.unix) (hu0 : 0 ≤ e.unix) :
    ∃ wss, r.command = setName :: r.key :: r.data :: wss.flatten ∧ List.Forall₂ (Reads e) (mcOpts r e.now e.unix f x c) wss := by
  obtain ⟨_, hf, hf2, hx, hx2, _, _, hc, hc2⟩ := hok
  have hopts : ∃ wss : List (List Bytes), Mc.Store.command.opts r = wss.flatten ∧
      List.Forall₂ (Reads e) ((if f = 0 ∧ r.flags = [48] then [] else [.flags f]) ++ (mcDeadline e.now e.unix x).toList.map .expire) wss := by
    have h1 : ∃ w1 : List (List Bytes), (if r.flags = [48] then [] else [[102, 108, 97, 103, 115], r.flags]) = w1.flatten ∧
        List.Forall₂ (Reads e) (if f = 0 ∧ r.flags = [48] then [] else [.flags f]) w1 := by
      by_cases hz : r.flags = [48]
      · refine ⟨[], by rw [if_pos hz]; rfl, ?_⟩
        rw [if_pos ⟨natText_zero hf hz, hz⟩]; exact .nil
      · refine ⟨[[[102, 108, 97, 103, 115], r.flags]], by rw [if_neg hz]; rfl, ?_⟩
        rw [if_neg (by tauto)]
        exact .cons (reads_flags spells_self (hf.u64 (by omega))) .nil
    have h2 : ∃ w2 : List (List Bytes), (if r.exp = [48] then [] else [[101, 120], r.exp]) = w2.flatten ∧
        List.Forall₂ (Reads e) ((mcDeadline e.now e.unix x).toList.map .expire) w2 := by
      by_cases hz : r.exp = [48]
      · refine ⟨[], by rw [if_pos hz]; rfl, ?_⟩
        have := (expText_zero hx).1 hz
        unfold mcDeadline
        rw [if_pos this]; exact .nil
      · obtain ⟨d, hd1, _, hd2⟩ := parseEx_mc hp hnow h0 hunix hu0 (expText_parse hx hx2) hx2 (fun hc => hz ((expText_zero hx).2 hc))
        refine ⟨[[[101, 120], r.exp]], by rw [if_neg hz]; rfl, ?_⟩
        rw [hd1]
        exact .cons (reads_ex spells_self (kind := .ex) (by simp) hd2) .nil
    obtain ⟨w1, a1, a2⟩ := h1
    obtain ⟨w2, b1, b2⟩ := h2
    refine ⟨w1 ++ w2, ?_, List.rel_append a2 b2⟩
    unfold Mc.Store.command.opts
    rw [a1, b1, List.flatten_append]
  obtain ⟨wss, h1, h2⟩ := hopts
  unfold mcOpts Mc.Store.command
  rcases hv with hv | hv | hv | hv <;> rw [hv] <;> simp only []
  · exact ⟨wss, by rw [h1]; rfl, by simpa using h2⟩
  · exact ⟨wss ++ [[[110, 120]]], by rw [h1]; simp [setName], List.rel_append h2 (.cons (reads_word spells_self (by simp)) .nil)⟩
  · exact ⟨wss ++ [[[120, 120]]], by rw [h1]; simp [setName], List.rel_append h2 (.cons (reads_word spells_self (by simp)) .nil)⟩
  · exact ⟨wss ++ [[[99, 97, 115], r.token]], by rw [h1]; simp [setName],
      List.rel_append h2 (.cons (reads_cas spells_self (hc.u64 hc2)) .nil)⟩

theorem mcOpts_mem {r : Mc.Store} {now unix : Int} {f : Nat} {x : Int} {c : Nat} {o : Opt} (h : o ∈ mcOpts r now unix f x c) :
    o = .flags f ∨ (∃ d, mcDeadline now unix x = some d ∧ o = .expire d) ∨ (o = .nx ∧ r.verb = .add) ∨ (o = .xx ∧ r.verb = .replace) ∨
      (o = .cas c ∧ r.verb = .cas) := by
  unfold mcOpts at h
  simp only [List.mem_append, List.mem_map, Option.mem_toList] at h
  rcases h with (h | ⟨d, h1, h2⟩) | h
  · split at h
    · simp at h
    · simp at h; exact Or.inl h
  · exact Or.inr (Or.inl ⟨d, h1, h2.symm⟩)
  · cases hv : r.verb <;> rw [hv] at h <;> simp at h <;> simp [h]

theorem mcOpts_deadline (r : Mc.Store) (now unix : Int) (f : Nat) (x : Int) (c : Nat) :
    deadlineOf (mcOpts r now unix f x c) = mcDeadline now unix x := by
  unfold deadlineOf mcOpts
  rw [List.filterMap_append, List.filterMap_append]
  have h1 : ∀ l : List Opt, (∀ o ∈ l, ∀ d, o ≠ .expire d) → l.filterMap Opt.deadline? = [] := by
    intro l hl
    rw [List.filterMap_eq_nil_iff]
    intro o ho
    have := hl o ho
    cases o <;> simp [Opt.deadline?, Opt.flags?, Opt.token?] at this ⊢
  rw [h1 (if f = 0 ∧ r.flags = [48] then [] else [.flags f]) (by split <;> simp),
    h1 (match r.verb with | .add => [.nx] | .replace => [.xx] | .cas => [.cas c] | _ => []) (by cases r.verb <;> simp)]
  cases mcDeadline now unix x <;> simp [Opt.deadline?]

theorem mcOpts_flags (r : Mc.Store) (now unix : Int) (f : Nat) (x : Int) (c : Nat) : flagsOf (mcOpts r now unix f x c) = f := by
  unfold flagsOf mcOpts
  rw [List.filterMap_append, List.filterMap_append]
  have h1 : ∀ l : List Opt, (∀ o ∈ l, ∀ d, o ≠ .flags d) → l.filterMap Opt.flags? = [] := by
    intro l hl
    rw [List.filterMap_eq_nil_iff]
    intro o ho
    have := hl o ho
    cases o <;> simp [Opt.deadline?, Opt.flags?, Opt.token?] at this ⊢
  rw [h1 ((mcDeadline now unix x).toList.map .expire) (by simp),
    h1 (match r.verb with | .add => [.nx] | .replace => [.xx] | .cas => [.cas c] | _ => []) (by cases r.verb <;> simp)]
  by_cases hz : f = 0 ∧ r.flags = [48]
  · rw [if_pos hz]; simp [hz.1]
  · rw [if_neg hz]; simp [Opt.flags?]

theorem mcOpts_token (r : Mc.Store) (now unix : Int) (f : Nat) (x : Int) (c : Nat) :
    tokenOf (mcOpts r now unix f x c) = if r.verb = .cas then some c else none := by
  unfold tokenOf mcOpts
  rw [List.filterMap_append, List.filterMap_append]
  have h1 : ∀ l : List Opt, (∀ o ∈ l, ∀ d, o ≠ .cas d) → l.filterMap Opt.token? = [] := by
    intro l hl
    rw [List.filterMap_eq_nil_iff]
    intro o ho
    have := hl o ho
    cases o <;> simp [Opt.deadline?, Opt.flags?, Opt.token?] at this ⊢
  rw [h1 ((mcDeadline now unix x).toList.map .expire) (by simp),
    h1 (if f = 0 ∧ r.flags = [48] then [] else [.flags f]) (by split <;> simp)]
  cases r.verb <;> simp [Opt.token?]

/-- Whether a storage request is to be refused, given the item that the key holds: `add` needs a missing key, `replace` and `cas` an existing one, `cas`
also the right token. -/
def McRefused (usecas : Bool) (v : Mc.Verb) (c : Nat) (old : Option Spec.Item) : Prop :=
  match v with
  | .add => old ≠ none
  | .replace => old = none
  | .cas => ∀ it, old = some it → usecas = false ∨ it.cas ≠ c
  | _ => False

theorem refused_mc {usecas : Bool} {r : Mc.Store} {now unix : Int} {f : Nat} {x : Int} {c : Nat} {old : Option Spec.Item} (hv : Stores r.verb) :
    Refused usecas (mcOpts r now unix f x c) old ↔ McRefused usecas r.verb c old := by
  have hnx : Opt.nx ∈ mcOpts r now unix f x c ↔ r.verb = .add := by
    constructor
    · intro h; rcases mcOpts_mem h with h | ⟨_, _, h⟩ | h | h | h <;> simp at h
      exact h
    · intro h; unfold mcOpts; rw [h]; simp
  have hxx : Opt.xx ∈ mcOpts r now unix f x c ↔ r.verb = .replace := by
    constructor
    · intro h; rcases mcOpts_mem h with h | ⟨_, _, h⟩ | h | h | h <;> simp at h
      exact h
    · intro h; unfold mcOpts; rw [h]; simp
  unfold Refused
  rw [mcOpts_token]
  cases old with
  | none =>
    simp only [hxx]
    rcases hv with hv | hv | hv | hv <;> rw [hv] <;> simp [McRefused]
  | some it =>
    simp only []
    rcases hv with hv | hv | hv | hv <;> rw [hv] <;> simp [McRefused, hnx, hv]

/-- STORED -/
def storedLine : Bytes := [83, 84, 79, 82, 69, 68, 13, 10]

/-- **C37** (second half; `_partial`: a zero expiry must be written "0", see `exptime_00_expires`).  Executing the command parsed from a well-formed
`set`, `add`, `replace` or `cas` request, for all keys, flags, expiries, tokens and data, whatever other threads do before: unless memory runs out, the
request is refused exactly when the protocol says so and then nothing changes; otherwise the key holds exactly the data, the flags and the
expiry of the request, nothing else changes (when memory is low one other key may go), and the reply is STORED. -/
theorem mc_store_stores_partial {r : Mc.Store} {f : Nat} {x : Int} {c : Nat} {s s' : Spec.State} {out : List W} (hok : r.Ok f x c)
    (hv : Stores r.verb) (hp : e.proto = .memcache) (hnow : IsI64 e.now) (h0 : 0 < e.now) (hunix : IsI64 e.unix) (hu0 : 0 ≤ e.unix)
    (h : Executes env I oom e pw other r.command s out s') :
    ∃ s1, I s s1 ∧
      (((oom = true ∨ (e.lowmem = true ∧ env.noevict = true)) ∧ out = [.err .outOfMemory] ∧ s'.dict = s1.dict) ∨
       (McRefused env.usecas r.verb c (s1.dict.get e.now r.key) ∧ (∃ t, out = [.raw t] ∧ ¬ storedLine <+: t) ∧ s'.dict = s1.dict) ∨
       (¬ McRefused env.usecas r.verb c (s1.dict.get e.now r.key) ∧ out = [.raw storedLine] ∧
        ∃ k, Stored e.lowmem r.key ⟨r.data, (mcDeadline e.now e.unix x).getD 0, f, k⟩ s1 s')) := by
  obtain ⟨wss, hcmd, hreads⟩ := mc_command_reads hok hv hp hnow h0 hunix hu0
  have hdl := mcOpts_deadline r e.now e.unix f x c
  have hd : ∀ d, deadlineOf (mcOpts r e.now e.unix f x c) = some d → 0 < d := by
    intro d hd
    rw [hdl] at hd
    unfold mcDeadline at hd
    unfold IsI64 at hnow
    split at hd
    · simp at hd
    · split at hd
      · simp at hd; omega
      · split at hd
        · simp at hd; rw [← hd]; unfold fromNow lastTime; omega
        · simp at hd; rw [← hd]; unfold lastTime; omega
  have hfl : FlagsOk (mcOpts r e.now e.unix f x c) := by
    intro n hn
    rcases mcOpts_mem hn with h | ⟨_, _, h⟩ | h | h | h <;> simp at h
    rw [h]; exact hok.2.2.1
  rw [hcmd, executes_iff spells_self (by decide : (setName, Fn.cmdSET) ∈ cmds) rfl, cmdSET_opts hreads hfl hd] at h
  have hnk : Opt.keepttl ∉ mcOpts r e.now e.unix f x c := by
    intro hc; rcases mcOpts_mem hc with h | ⟨_, _, h⟩ | h | h | h <;> simp at h
  have hng : Opt.get ∉ mcOpts r e.now e.unix f x c := by
    intro hc; rcases mcOpts_mem hc with h | ⟨_, _, h⟩ | h | h | h <;> simp at h
  have hc2 : ¬ ((collect (mcOpts r e.now e.unix f x c)).xx = true ∧ (collect (mcOpts r e.now e.unix f x c)).nx = true) := by
    rintro ⟨h1, h2⟩
    simp only [collect, decide_eq_true_eq] at h1 h2
    rcases mcOpts_mem h1 with h | ⟨_, _, h⟩ | h | h | h <;> simp at h
    rcases mcOpts_mem h2 with h' | ⟨_, _, h'⟩ | h' | h' | h' <;> simp at h'
    rw [h] at h'; simp at h'
  rw [if_neg (by simp [collect, hnk]), if_neg hc2] at h
  unfold execSET at h
  obtain ⟨s1, q, s2, h1, h2, h3⟩ := runs_call h
  obtain ⟨h4, rfl⟩ := runs_ret h3
  refine ⟨s1, h1, ?_⟩
  rcases set_step hd (fun it hit => visible_nonneg h0 hit) h2 with ⟨a1, rfl, a3⟩ | ⟨a1, rfl, a3⟩ | ⟨a1, a2, a3, a4⟩
  · exact Or.inl ⟨a1, by rw [h4]; simp [setReply], a3⟩
  · rw [refused_mc hv] at a1
    refine Or.inr (Or.inl ⟨a1, ?_, a3⟩)
    rw [h4]
    cases hg : s1.dict.get e.now r.key with
    | none => exact ⟨[78, 79, 84, 95, 70, 79, 85, 78, 68, 13, 10, 0], by simp [setReply, hp, collect, hng], by decide⟩
    | some it => exact ⟨[69, 88, 73, 83, 84, 83, 13, 10], by simp [setReply, hp, collect, hng], by decide⟩
  · rw [refused_mc hv] at a1
    refine Or.inr (Or.inr ⟨a1, ?_, ?_⟩)
    · rw [h4]
      unfold setReply
      rw [a3, a2]
      cases hg : s1.dict.get e.now r.key with
      | none => simp [collect, hng, hp, storedLine]
      | some it => simp [collect, hng, hp, storedLine]
    · obtain ⟨k, a4⟩ := a4
      refine ⟨k, ?_⟩
      rw [mcOpts_flags] at a4
      have : newDeadline (mcOpts r e.now e.unix f x c) (s1.dict.get e.now r.key) = (mcDeadline e.now e.unix x).getD 0 := by
        unfold newDeadline
        rw [hdl]
        cases s1.dict.get e.now r.key with
        | none => rfl
        | some it => simp [hnk]
      rw [this] at a4
      exact a4

/-- **C37 is false of the code** for a zero expiry that is not written "0": `set k 0 00 1` should store for ever, but the item has expired at once. -/
theorem exptime_00_expires :
    Mc.parseMc [115, 101, 116, 32, 107, 32, 48, 32, 48, 48, 32, 49, 13, 10, 97, 13, 10] =
      .got (.cmd [setName, [107], [97], [101, 120], [48, 48]] false, 17) ∧
    replies ctx4 4 [(at_ .memcache 1000, [setName, [107], [97], [101, 120], [48, 48]]), (at_ .memcache 1000, [mgetName, [107]])] =
      some [[.raw storedLine], [.raw [69, 78, 68, 13, 10]]] := by
  constructor
  · decide +kernel
  · decide +kernel

/-- `cas k 5 100 2 2`, data "CR LF", after `set`. -/
example : ∃ r : Mc.Store, r.Ok 5 100 2 ∧ Stores r.verb ∧ ∃ s s', Executes ⟨true, false, shardIdx ctx4 4⟩ alone false (at_ .memcache 1000) [] noOther
    r.command s [.raw storedLine] s' := by
  refine ⟨⟨.cas, [107], [53], [49, 48, 48], [50], [50], false, [13, 10]⟩, ?_, by simp [Stores], ?_⟩
  · refine ⟨⟨by decide, by decide, by decide⟩, ⟨by decide, by decide, by decide, by decide⟩, by decide,
      Or.inl ⟨100, ⟨by decide, by decide, by decide, by decide⟩, rfl, by decide⟩, by unfold IsI64; decide,
      ⟨by decide, by decide, by decide, by decide⟩, by decide, ⟨by decide, by decide, by decide, by decide⟩, by decide⟩
  · exact last_executes ctx4_valid (by decide : 0 < 4) [(at_ .memcache 1000, [setName, [107], [97]])]
      (at_ .memcache 1000, Mc.Store.command ⟨.cas, [107], [53], [49, 48, 48], [50], [50], false, [13, 10]⟩)
      (by simp only [at_, IsI64]; decide) (by simp) (by decide +kernel)

end Verif.Cmd
