import Mathlib.Tactic.Common
import Mathlib.Tactic.Linarith
import Verif.Cmd.Expiry

/-!
C60 and C47: SET with any options in any order.
-/

namespace Verif.Cmd

open Verif.Num Verif.Resp Verif.Cache Function

/-! ### Specification -/

/-- What an option asks for. -/
inductive Opt where
  | expire (deadline : Int)
  | nx | xx | get | keepttl
  | flags (n : Nat)
  | cas (token : Nat)
deriving DecidableEq, Repr

/-- An unsigned number as an argument. -/
def NatArg (t : Bytes) (n : Nat) : Prop := t.length ≤ 21 ∧ DenotesInt t n ∧ ∀ b, t.head? = some b → b ∉ ([32, 9, 10, 11, 12, 13, 45] : Bytes)

/-- How options are written (RESP), at time `now`; names in any letter case. -/
inductive Written (now : Int) : Opt → List Bytes → Prop
  | ex {w t : Bytes} {x : Int} : Spells w [101, 120] → IntArg t x → 0 < x → Written now (.expire (fromNow now x 1000000000)) [w, t]
  | px {w t : Bytes} {x : Int} : Spells w [112, 120] → IntArg t x → 0 < x → Written now (.expire (fromNow now x 1000000)) [w, t]
  | nx {w : Bytes} : Spells w [110, 120] → Written now .nx [w]
  | xx {w : Bytes} : Spells w [120, 120] → Written now .xx [w]
  | get {w : Bytes} : Spells w [103, 101, 116] → Written now .get [w]
  | keepttl {w : Bytes} : Spells w [107, 101, 101, 112, 116, 116, 108] → Written now .keepttl [w]
  | flags {w t : Bytes} {n : Nat} : Spells w [102, 108, 97, 103, 115] → NatArg t n → n < 2 ^ 32 → Written now (.flags n) [w, t]
  | cas {w t : Bytes} {n : Nat} : Spells w [99, 97, 115] → NatArg t n → n < 2 ^ 64 → Written now (.cas n) [w, t]

/-- The deadline an option asks for. -/
def Opt.deadline? : Opt → Option Int
  | .expire d => some d
  | _ => none
/-- The flags an option asks for. -/
def Opt.flags? : Opt → Option Nat
  | .flags n => some n
  | _ => none
/-- The CAS token an option asks for. -/
def Opt.token? : Opt → Option Nat
  | .cas n => some n
  | _ => none

/-- The deadline asked for; the last one counts. -/
def deadlineOf (os : List Opt) : Option Int := (os.filterMap Opt.deadline?).getLast?
/-- The flags asked for. -/
def flagsOf (os : List Opt) : Nat := ((os.filterMap Opt.flags?).getLast?).getD 0
/-- The CAS token asked for. -/
def tokenOf (os : List Opt) : Option Nat := (os.filterMap Opt.token?).getLast?

/-- Options that contradict each other. -/
def Contradictory (os : List Opt) : Prop := (.nx ∈ os ∧ .xx ∈ os) ∨ (.keepttl ∈ os ∧ deadlineOf os ≠ none)

/-- The store is refused, given the item that the key holds. -/
def Refused (usecas : Bool) (os : List Opt) (old : Option Spec.Item) : Prop :=
  match old with
  | none => .xx ∈ os ∨ tokenOf os ≠ none
  | some it =>
    match tokenOf os with
    | some c => usecas = false ∨ it.cas ≠ c
    | none => .nx ∈ os

/-- The deadline of the new item. -/
def newDeadline (os : List Opt) (old : Option Spec.Item) : Int :=
  match old with
  | none => (deadlineOf os).getD 0
  | some it => if .keepttl ∈ os then it.expires else (deadlineOf os).getD 0

/-- Reply to a stored value. -/
def acceptedReply (os : List Opt) (old : Option Spec.Item) : W :=
  if .get ∈ os then (match old with | none => .null | some it => .bulk it.value) else .str [79, 75]

/-! ### Reading the options -/

/-- What an option does to the collected options. -/
def Opt.apply (o : Opt) (a : SetOpts) : SetOpts :=
  match o with
  | .expire d => { a with expires := d, hasex := true }
  | .nx => { a with nx := true }
  | .xx => { a with xx := true }
  | .get => { a with get := true }
  | .keepttl => { a with keepttl := true }
  | .flags n => { a with flags := n % 2 ^ 32 }
  | .cas n => { a with cas := n, withcas := true }

/-- The words are read as the option. -/
def Reads (e : Env) (o : Opt) (ws : List Bytes) : Prop := ∀ rest a, setLoop e (ws ++ rest) a = setLoop e rest (o.apply a)

theorem argeq_spells {w low name : Bytes} (hl : low.map lower = low) (h : Spells w low) : argeq w name = decide (low = name) := by
  have := (spells_iff _ _ hl).1 h
  rw [Bool.eq_iff_iff, argeq_iff, this, decide_eq_true_iff]

theorem NatArg.parse {t : Bytes} {n : Nat} (h : NatArg t n) (hn : n < 2 ^ 64) : parseU64 t = some n := by
  rw [parseU64_exact_partial]
  · refine Or.inr ⟨h.1, h.2.1, ?_, hn⟩
    intro hc
    exact h.2.2 _ hc (by decide)
  · intro b hb hc
    apply h.2.2 b hb
    revert hc
    simp only [List.mem_cons, List.not_mem_nil, or_false]
    tauto

theorem reads_ex {e : Env} {kind : ExKind} {low w t : Bytes} {d : Int} (hs : Spells w low)
    (hk : (low, kind) ∈ [(([101, 120] : Bytes), ExKind.ex), ([112, 120], .px), ([101, 120, 97, 116], .exat), ([112, 120, 97, 116], .pxat)])
    (hp : parseEx e kind t = .ok (some d)) : Reads e (.expire d) [w, t] := by
  intro rest a
  simp only [List.mem_cons, Prod.mk.injEq, List.not_mem_nil, or_false] at hk
  rcases hk with ⟨rfl, rfl⟩ | ⟨rfl, rfl⟩ | ⟨rfl, rfl⟩ | ⟨rfl, rfl⟩ <;>
  · simp only [List.cons_append, List.nil_append]
    rw [setLoop]
    simp only [argeq_spells (by decide) hs, hp, Opt.apply]
    simp

theorem reads_word {e : Env} {o : Opt} {low w : Bytes} (hs : Spells w low)
    (hk : (low, o) ∈ [(([110, 120] : Bytes), Opt.nx), ([120, 120], .xx), ([103, 101, 116], .get), ([107, 101, 101, 112, 116, 116, 108], .keepttl)]) :
    Reads e o [w] := by
  intro rest a
  simp only [List.mem_cons, Prod.mk.injEq, List.not_mem_nil, or_false] at hk
  rcases hk with ⟨rfl, rfl⟩ | ⟨rfl, rfl⟩ | ⟨rfl, rfl⟩ | ⟨rfl, rfl⟩ <;>
  · simp only [List.cons_append, List.nil_append]
    rw [setLoop.eq_def]
    simp only [argeq_spells (by decide) hs, Opt.apply]
    simp

theorem reads_flags {e : Env} {w t : Bytes} {n : Nat} (hs : Spells w [102, 108, 97, 103, 115]) (hp : parseU64 t = some n) :
    Reads e (.flags n) [w, t] := by
  intro rest a
  simp only [List.cons_append, List.nil_append]
  rw [setLoop]
  simp only [argeq_spells (by decide) hs, hp, Opt.apply]
  simp

theorem reads_cas {e : Env} {w t : Bytes} {n : Nat} (hs : Spells w [99, 97, 115]) (hp : parseU64 t = some n) : Reads e (.cas n) [w, t] := by
  intro rest a
  simp only [List.cons_append, List.nil_append]
  rw [setLoop]
  simp only [argeq_spells (by decide) hs, hp, Opt.apply]
  simp

theorem expirySeconds_resp {e : Env} (hp : e.proto ≠ .memcache) (y : Int) : expirySeconds e y = addClamp e.now y := by
  unfold expirySeconds
  rw [if_neg (by tauto)]

theorem written_reads {e : Env} {o : Opt} {ws : List Bytes} (hp : e.proto ≠ .memcache) (hnow : IsI64 e.now) (h0 : 0 < e.now)
    (h : Written e.now o ws) : Reads e o ws := by
  cases h with
  | @ex w t x hs ht hx =>
    refine reads_ex hs (kind := .ex) (by simp) ?_
    unfold parseEx
    rw [ht.parse]
    simp only [if_neg (show ¬ x ≤ 0 by omega)]
    have := deadline_eq hnow h0 (by decide : (0 : Int) < second) (by unfold IsI64; decide) ht.2.2 (by omega)
    simp only [expirySeconds_resp hp]
    rw [this]; rfl
  | @px w t x hs ht hx =>
    refine reads_ex hs (kind := .px) (by simp) ?_
    unfold parseEx
    rw [ht.parse]
    simp only [if_neg (show ¬ x ≤ 0 by omega)]
    have := deadline_eq hnow h0 (by decide : (0 : Int) < millisecond) (by unfold IsI64; decide) ht.2.2 (by omega)
    simp only [expirySeconds_resp hp]
    rw [this]; rfl
  | nx hs => exact reads_word hs (by simp)
  | xx hs => exact reads_word hs (by simp)
  | get hs => exact reads_word hs (by simp)
  | keepttl hs => exact reads_word hs (by simp)
  | flags hs ht hn => exact reads_flags hs (ht.parse (by omega))
  | cas hs ht hn => exact reads_cas hs (ht.parse hn)

theorem setLoop_all {e : Env} {os : List Opt} {wss : List (List Bytes)} (h : List.Forall₂ (Reads e) os wss) (a : SetOpts) :
    setLoop e wss.flatten a = .ok (some (os.foldl (fun a o => o.apply a) a)) := by
  induction h generalizing a with
  | nil => simp [setLoop]
  | cons h1 _ ih => rw [List.flatten_cons, h1, ih]; rfl

/-- The options collected from a list. -/
def collect (os : List Opt) : SetOpts :=
  ⟨(deadlineOf os).getD 0, decide (.nx ∈ os), decide (.xx ∈ os), decide (.get ∈ os), decide (.keepttl ∈ os), (deadlineOf os).isSome,
    flagsOf os, (tokenOf os).getD 0, (tokenOf os).isSome⟩

/-- Flags asked for fit into 32 bits. -/
def FlagsOk (os : List Opt) : Prop := ∀ n, .flags n ∈ os → n < 2 ^ 32

theorem foldl_collect (os : List Opt) (hf : FlagsOk os) :
    os.foldl (fun a o => o.apply a) ⟨0, false, false, false, false, false, 0, 0, false⟩ = collect os := by
  induction os using List.reverseRecOn with
  | nil => rfl
  | append_singleton os o ih =>
    rw [List.foldl_append, ih (fun n hn => hf n (by simp [hn]))]
    cases o with
    | flags n =>
      have : n < 2 ^ 32 := hf n (by simp)
      simp [Opt.apply, collect, deadlineOf, flagsOf, tokenOf, List.filterMap_append, Opt.deadline?, Opt.flags?, Opt.token?]
      omega
    | _ => simp [Opt.apply, collect, deadlineOf, flagsOf, tokenOf, List.filterMap_append, Opt.deadline?, Opt.flags?, Opt.token?]

/-! ### Storing -/

/-- The key holds the new value and nothing else changed, except that one other key may be gone when memory is low. -/
def Stored (lowmem : Bool) (key : Bytes) (it : Spec.Item) (s s' : Spec.State) : Prop :=
  Put key it s s' ∨
    (lowmem = true ∧ s'.dict key = some it ∧ ∃ v, v ≠ key ∧ s'.dict v = none ∧ ∀ k, k ≠ key → k ≠ v → s'.dict k = s.dict k)

/-- What SET does once its options are known, and its status. -/
theorem set_step {env : Spec.Env} {oom : Bool} {e : Env} {key val : Bytes} {os : List Opt} {s s' : Spec.State} {r : Spec.Reply}
    (hd : ∀ d, deadlineOf os = some d → 0 < d)
    (hvis : ∀ it, s.dict.get e.now key = some it → 0 ≤ it.expires)
    (h : Spec.Step env oom e.now (.store { key, val, expires := (collect os).expires, ttl := 0, cas := (collect os).cas, flags := (collect os).flags
                                           keepttl := (collect os).keepttl, casop := (collect os).withcas, nx := (collect os).nx
                                           xx := (collect os).xx, lowmem := e.lowmem
                                           ask := if (collect os).get then some fun _ => true else none }) s r s') :
    ((oom = true ∨ (e.lowmem = true ∧ env.noevict = true)) ∧ r = ⟨.nomem, []⟩ ∧ s'.dict = s.dict) ∨
    (Refused env.usecas os (s.dict.get e.now key) ∧
      r = ⟨if s.dict.get e.now key = none then .notfound else .found, []⟩ ∧ s'.dict = s.dict) ∨
    (¬ Refused env.usecas os (s.dict.get e.now key) ∧
      r.status = (if s.dict.get e.now key = none then .inserted else .replaced) ∧
      r.shown = (match s.dict.get e.now key with | none => [] | some it => if .get ∈ os then [(key, it)] else []) ∧
      ∃ c, Stored e.lowmem key ⟨val, newDeadline os (s.dict.get e.now key), flagsOf os, c⟩ s s') := by
  have hnorm : Spec.normExp ((deadlineOf os).getD 0) = (deadlineOf os).getD 0 := by
    unfold Spec.normExp
    cases hdo : deadlineOf os with
    | none => rfl
    | some d => have := hd d hdo; simp only [Option.getD_some]; rw [if_pos this]
  have hasked : ∀ a : Spec.StoreArgs, a.expires = (deadlineOf os).getD 0 → a.ttl = 0 → a.asked e.now = (deadlineOf os).getD 0 := by
    intro a h1 h2
    unfold Spec.StoreArgs.asked
    rw [h1, h2]
    cases hdo : deadlineOf os with
    | none => rfl
    | some d => have := hd d hdo; simp only [Option.getD_some]; rw [if_pos this]
  unfold Spec.Step at h
  simp only [] at h
  by_cases hlow : (e.lowmem && env.noevict) = true
  · rw [if_pos hlow] at h
    obtain ⟨rfl, rfl⟩ := h
    refine Or.inl ⟨Or.inr ?_, rfl, rfl⟩
    simpa using hlow
  rw [if_neg hlow] at h
  rcases h with ⟨ho, rfl, rfl⟩ | h
  · exact Or.inl ⟨Or.inl ho, rfl, rfl⟩
  right
  cases hg : s.dict.get e.now key with
  | none =>
    rw [hg] at h
    simp only [] at h
    by_cases href : ((collect os).xx = true ∨ (collect os).withcas = true)
    · rw [if_pos href] at h
      obtain ⟨rfl, rfl⟩ := h
      left
      refine ⟨?_, rfl, rfl⟩
      simpa [Refused, collect, Option.isSome_iff_ne_none] using href
    · rw [if_neg href] at h
      obtain ⟨rfl, h⟩ := h
      right
      refine ⟨?_, rfl, rfl, ?_⟩
      · simpa [Refused, collect, Option.isSome_iff_ne_none] using href
      · rw [hasked _ rfl rfl, hnorm] at h
        rcases h with rfl | ⟨hl, v, hv, rfl⟩
        · exact ⟨_, Or.inl ⟨update_self _ _ _, fun k hk => update_of_ne hk _ _⟩⟩
        · refine ⟨_, Or.inr ⟨hl, (update_of_ne (Ne.symm hv) _ _).trans (update_self _ _ _), v, hv, update_self _ _ _, fun k hk hkv => ?_⟩⟩
          · simp only []; rw [update_of_ne hkv, update_of_ne hk]
  | some it =>
    rw [hg] at h
    simp only [] at h
    have hit : Spec.normExp it.expires = it.expires := by
      have := hvis it hg
      unfold Spec.normExp
      split <;> omega
    have hask : ¬ (Option.map (fun x => x it) (if (collect os).get = true then some fun _ => true else none) = some false) := by
      split <;> simp
    have hcond : (if (collect os).withcas = true then env.usecas = false ∨ (collect os).cas ≠ it.cas else (collect os).nx = true) ↔
        Refused env.usecas os (some it) := by
      unfold Refused collect
      cases ht : tokenOf os with
      | none => simp
      | some c => simp only [Option.isSome_some, if_true, Option.getD_some, ne_eq, eq_comm (a := c)]
    by_cases href : Refused env.usecas os (some it)
    · rw [if_pos (hcond.2 href)] at h
      obtain ⟨rfl, rfl⟩ := h
      exact Or.inl ⟨href, rfl, rfl⟩
    · rw [if_neg (fun hc => href (hcond.1 hc)), if_neg hask] at h
      obtain ⟨rfl, rfl⟩ := h
      right
      refine ⟨href, rfl, ?_, ?_⟩
      · simp only [collect, decide_eq_true_eq]
        by_cases hget : Opt.get ∈ os
        · simp [hget]
        · simp [hget]
      · refine ⟨if env.usecas = true then update s.tok (env.grp key) (s.tok (env.grp key) + 1) (env.grp key) else 0,
          Or.inl ⟨?_, fun k hk => update_of_ne hk _ _⟩⟩
        simp only []
        rw [update_self, hasked _ rfl rfl]
        have : Spec.normExp (if (collect os).keepttl = true then it.expires else (deadlineOf os).getD 0) = newDeadline os (some it) := by
          unfold newDeadline
          simp only [collect, decide_eq_true_eq]
          split
          · exact hit
          · exact hnorm
        rw [this]
        rfl

variable {env : Spec.Env} {I : Spec.State → Spec.State → Prop} {oom : Bool} {e : Env} {pw : Bytes}
  {other : Fn → Env → List Bytes → Prog (List W)}

def setName : Bytes := [115, 101, 116]

theorem visible_nonneg {d : Spec.Dict} {now : Int} (h0 : 0 < now) {key : Bytes} {it : Spec.Item} (h : d.get now key = some it) :
    0 ≤ it.expires := by
  unfold Spec.Dict.get at h
  have := (Option.filter_eq_some_iff.1 h).2
  simp only [Spec.Item.visible, Bool.or_eq_true, decide_eq_true_eq] at this
  omega

theorem deadlines_pos {now : Int} (h0 : 0 < now) {os : List Opt} {wss : List (List Bytes)} (h : List.Forall₂ (Written now) os wss) :
    ∀ d, deadlineOf os = some d → 0 < d := by
  have hall : ∀ d, .expire d ∈ os → 0 < d := by
    induction h with
    | nil => simp
    | @cons o ws os wss h1 _ ih =>
      intro d hd
      rcases List.mem_cons.1 hd with h2 | h2
      · subst h2
        cases h1 with
        | ex _ _ hx => unfold fromNow lastTime; omega
        | px _ _ hx => unfold fromNow lastTime; omega
      · exact ih d h2
  intro d hd
  unfold deadlineOf at hd
  have := List.mem_of_getLast? hd
  simp only [List.mem_filterMap] at this
  obtain ⟨o, ho, hod⟩ := this
  cases o <;> simp [Opt.deadline?] at hod
  subst hod
  exact hall _ ho

theorem flags_ok {now : Int} {os : List Opt} {wss : List (List Bytes)} (h : List.Forall₂ (Written now) os wss) : FlagsOk os := by
  induction h with
  | nil => intro n hn; simp at hn
  | @cons o ws os wss h1 _ ih =>
    intro n hn
    rcases List.mem_cons.1 hn with h2 | h2
    · subst h2; cases h1; assumption
    · exact ih n h2

/-- The program of SET with options that are read as `os`. -/
theorem cmdSET_opts {name key val : Bytes} {os : List Opt} {wss : List (List Bytes)} (h : List.Forall₂ (Reads e) os wss) (hf : FlagsOk os)
    (hd : ∀ d, deadlineOf os = some d → 0 < d) :
    cmdSET e (name :: key :: val :: wss.flatten) =
      if (collect os).keepttl ∧ (collect os).hasex then .ret [.err .syntaxError]
      else if (collect os).xx ∧ (collect os).nx then .ret [.err .syntaxError]
      else execSET e [83, 69, 84] key val (collect os) := by
  unfold cmdSET
  simp only [setLoop_all h, foldl_collect os hf]
  have : ¬ (collect os).expires < 0 := by
    simp only [collect]
    cases hdo : deadlineOf os with
    | none => simp
    | some d => have := hd d hdo; simp; omega
  rw [if_neg this]

/-- **C60** (`_partial`: EXAT and PXAT are left out, see `exat_never_expires`; the reply to a refused SET with GET is null, see
`set_nx_get_hides_value`).  For all keys, values, option lists in any order and letter case, and whatever other threads do before: options that
contradict each other are refused; otherwise the value is stored under exactly the conditions the options state, with the flags and the deadline
they state, nothing else changes (when memory is low one other key may go), and the reply tells. -/
theorem set_exact_partial {name key val : Bytes} {os : List Opt} {wss : List (List Bytes)} {s s' : Spec.State} {out : List W}
    (hn : Spells name setName) (hp : e.proto = .resp) (hnow : IsI64 e.now) (h0 : 0 < e.now) (hw : List.Forall₂ (Written e.now) os wss)
    (h : Executes env I oom e pw other (name :: key :: val :: wss.flatten) s out s') :
    (Contradictory os → out = [.err .syntaxError] ∧ s' = s) ∧
    (¬ Contradictory os → ∃ s1, I s s1 ∧
      (((oom = true ∨ (e.lowmem = true ∧ env.noevict = true)) ∧ out = [.err .outOfMemory] ∧ s'.dict = s1.dict) ∨
       (Refused env.usecas os (s1.dict.get e.now key) ∧ out = [.null] ∧ s'.dict = s1.dict) ∨
       (¬ Refused env.usecas os (s1.dict.get e.now key) ∧ out = [acceptedReply os (s1.dict.get e.now key)] ∧
        ∃ c, Stored e.lowmem key ⟨val, newDeadline os (s1.dict.get e.now key), flagsOf os, c⟩ s1 s'))) := by
  have hpm : e.proto ≠ .memcache := by rw [hp]; decide
  have hd := deadlines_pos h0 hw
  rw [executes_iff hn (by decide : (_, Fn.cmdSET) ∈ cmds) rfl,
    cmdSET_opts (hw.imp fun _ _ h => written_reads hpm hnow h0 h) (flags_ok hw) hd] at h
  have hc1 : ((collect os).keepttl = true ∧ (collect os).hasex = true) ↔ (.keepttl ∈ os ∧ deadlineOf os ≠ none) := by
    simp [collect, Option.isSome_iff_ne_none]
  have hc2 : ((collect os).xx = true ∧ (collect os).nx = true) ↔ (.xx ∈ os ∧ .nx ∈ os) := by simp [collect]
  constructor
  · intro hcon
    by_cases h1 : (collect os).keepttl = true ∧ (collect os).hasex = true
    · rw [if_pos h1] at h
      exact runs_ret h
    · rw [if_neg h1, if_pos (by rw [hc2]; rcases hcon with hc | hc; exact ⟨hc.2, hc.1⟩; exact absurd (hc1.2 hc) h1)] at h
      exact runs_ret h
  · intro hcon
    rw [if_neg (fun hc => hcon (Or.inr (hc1.1 hc))), if_neg (fun hc => hcon (Or.inl (hc2.1 hc).symm))] at h
    unfold execSET at h
    obtain ⟨s1, r, s2, h1, h2, h3⟩ := runs_call h
    obtain ⟨h4, rfl⟩ := runs_ret h3
    refine ⟨s1, h1, ?_⟩
    rcases set_step hd (fun it hit => visible_nonneg h0 hit) h2 with ⟨a1, rfl, a3⟩ | ⟨a1, rfl, a3⟩ | ⟨a1, a2, a3, a4⟩
    · exact Or.inl ⟨a1, by rw [h4]; simp [setReply], a3⟩
    · refine Or.inr (Or.inl ⟨a1, ?_, a3⟩)
      rw [h4]
      cases hg : s1.dict.get e.now key <;> simp [setReply, setEntry, hp]
    · refine Or.inr (Or.inr ⟨a1, ?_, a4⟩)
      rw [h4]
      unfold setReply acceptedReply
      rw [a3, a2]
      cases hg : s1.dict.get e.now key with
      | none =>
        by_cases hget : Opt.get ∈ os <;> simp [collect, hget, hp, setEntry]
      | some it =>
        by_cases hget : Opt.get ∈ os <;> simp [collect, hget, hp, setEntry]

/-- Wrong order of GET and NX: the reply to a refused `SET k b NX GET` is null although the key holds a value. -/
theorem set_nx_get_hides_value :
    replies ctx4 4 [(at_ .resp 1000, [setName, [107], [97]]), (at_ .resp 1000, [setName, [107], [98], [110, 120], [103, 101, 116]]),
      (at_ .resp 1000, [getName, [107]])] = some [[.str [79, 75]], [.null], [.bulk [97]]] := by
  decide +kernel

/-- **C47 is false of the code** for EXAT: the deadline is a Unix time, but it is compared with the time since the machine started.  A key
with a deadline 10^18 nanoseconds (31 years) in the past is stored and still there 1000 seconds later. -/
theorem exat_never_expires :
    replies ctx4 4 [(at_ .resp 1000, [setName, [107], [97], [101, 120, 97, 116], [49, 48, 48, 49]]),
      (at_ .resp 1000000000000, [getName, [107]])] = some [[.str [79, 75]], [.bulk [97]]] ∧
    1001 * 1000000000 < (at_ .resp 1000).unix := by
  constructor
  · decide +kernel
  · decide

/-- `SET k b px 250 FLAGS 7 Get` on an existing key. -/
example : (∃ s s', Executes ⟨true, false, shardIdx ctx4 4⟩ alone false (at_ .resp 1000) [] noOther
      (setName :: [107] :: [98] :: ([[[112, 120], [50, 53, 48]], [[70, 76, 65, 71, 83], [55]], [[71, 101, 116]]] : List (List Bytes)).flatten)
      s [.bulk [97]] s') ∧
    List.Forall₂ (Written 1000) [.expire 250001000, .flags 7, .get] [[[112, 120], [50, 53, 48]], [[70, 76, 65, 71, 83], [55]], [[71, 101, 116]]] ∧
    ¬ Contradictory [.expire 250001000, .flags 7, .get] := by
  refine ⟨last_executes ctx4_valid (by decide : 0 < 4) [(at_ .resp 1000, [setName, [107], [97]])]
    (at_ .resp 1000, setName :: [107] :: [98] :: ([[[112, 120], [50, 53, 48]], [[70, 76, 65, 71, 83], [55]], [[71, 101, 116]]] : List (List Bytes)).flatten)
    (by simp only [at_, IsI64]; decide) (by simp) (by decide +kernel), ?_, ?_⟩
  · refine .cons ?_ (.cons ?_ (.cons ?_ .nil))
    · have : (250001000 : Int) = fromNow 1000 250 1000000 := by unfold fromNow lastTime; decide
      rw [this]
      exact .px spells_self ⟨by decide, ⟨[], [], [50, 53, 48], rfl, by decide, by decide, by decide, Or.inl ⟨Or.inl rfl, by decide⟩⟩,
        by unfold IsI64; decide⟩ (by decide)
    · exact .flags ((spells_iff _ _ (by decide)).2 (by decide))
        ⟨by decide, ⟨[], [], [55], rfl, by decide, by decide, by decide, Or.inl ⟨Or.inl rfl, by decide⟩⟩, by simp⟩ (by decide)
    · exact .get ((spells_iff _ _ (by decide)).2 (by decide))
  · simp [Contradictory]

end Verif.Cmd
