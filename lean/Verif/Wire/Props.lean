import Mathlib.Tactic.Common
import Mathlib.Tactic.Linarith
import Verif.Wire.Model
import Verif.Wire.Flags

/-!
C98: on a RESP connection the server is the one a user has in mind.
-/

namespace Verif.Wire

open Verif.Num Verif.Resp Verif.Cmd Verif.Cache Verif.Shard Verif.Map Function

/-! ### Numbers -/

theorem loop_digits (n : Nat) : (u64toaLoop n).reverse = digits n := by
  induction n using Nat.strong_induction_on with
  | _ n ih =>
    rw [u64toaLoop, digits]
    by_cases h : n < 10
    · rw [if_pos h, if_neg (by omega), Nat.mod_eq_of_lt h]; rfl
    · rw [if_neg h, if_pos (by omega), List.reverse_cons, ih _ (by omega)]

theorem i64toa_shown (x : Int) : i64toa x = shown x := by
  have h : ∀ n, u64toa n = digits n := by
    intro n
    unfold u64toa
    split
    · rename_i hn; rw [digits, if_pos hn]
    · exact loop_digits n
  unfold i64toa shown
  split
  · split
    · rename_i h1; subst h1; decide +kernel
    · rw [h]
  · rw [h]

theorem isNumber_iff {t : Bytes} {x : Int} : IsNumber t x ↔ parse64 false t = some x := by
  rw [parse64_iff (by intro hc; cases hc)]
  unfold IsNumber Cmd.NumText InR IsI64
  simp

/-! ### What is kept -/

/-- An item without its token and flags. -/
def kept (it : Spec.Item) : Kept := ⟨it.value, if it.expires = 0 then none else some it.expires⟩

/-- Not longer than what can be sent, and a time of 64 bits. -/
def Fit (x : Kept) : Prop := x.value.length ≤ longest ∧ ∀ d, x.upto = some d → d < 2 ^ 63

/-- The store is what the dictionary shows from `now` on, with values and times that can be sent. -/
def Agrees (now : Int) (d : Spec.Dict) (m : Store) : Prop :=
  (∀ k, Store.see (fun k => (d k).map kept) now k = m.see now k) ∧ ∀ k x, m.see now k = some x → Fit x

theorem see_get (d : Spec.Dict) (now : Int) (k : Bytes) : Store.see (fun k => (d k).map kept) now k = (d.get now k).map kept := by
  unfold Store.see Spec.Dict.get
  simp only []
  cases d k with
  | none => rfl
  | some it =>
    simp only [Option.map_some, Option.filter_some]
    have : (kept it).upto.all (fun d => decide (now < d)) = it.visible now := by
      unfold kept Spec.Item.visible
      by_cases h : it.expires = 0 <;> simp [h]
    rw [this]
    split <;> rfl

theorem see_later {m : Store} {now t : Int} (h : now ≤ t) (k : Bytes) : m.see t k = (m.see now k).filter fun x => x.upto.all fun d => decide (t < d) := by
  unfold Store.see
  cases m k with
  | none => rfl
  | some x =>
    obtain ⟨v, u⟩ := x
    simp only [Option.filter_some]
    cases u with
    | none => simp [Option.filter]
    | some d =>
      by_cases h1 : t < d
      · have h2 : now < d := by omega
        simp [Option.filter, h1, h2]
      · by_cases h2 : now < d <;> simp [Option.filter, h1, h2]

theorem Agrees.later {now t : Int} {d : Spec.Dict} {m : Store} (h : Agrees now d m) (hle : now ≤ t) : Agrees t d m := by
  refine ⟨fun k => ?_, fun k x hx => ?_⟩
  · rw [see_later hle, see_later hle (m := m), h.1]
  · rw [see_later hle, Option.filter_eq_some_iff] at hx
    exact h.2 k x hx.1

theorem Agrees.get {now : Int} {d : Spec.Dict} {m : Store} (h : Agrees now d m) (k : Bytes) : m.see now k = (d.get now k).map kept := by
  rw [← h.1, see_get]

theorem see_congr {m m' : Store} {now : Int} {k : Bytes} (h : m k = m' k) : m.see now k = m'.see now k := by
  unfold Store.see; rw [h]

theorem Agrees.put {now : Int} {d d' : Spec.Dict} {m : Store} (h : Agrees now d m) {k : Bytes} {it : Spec.Item} (hk : d' k = some it)
    (hd : ∀ j, j ≠ k → d' j = d j) {x : Kept} (hx : kept it = x) (hl : Fit x) : Agrees now d' (update m k (some x)) := by
  have hs : ∀ j, j ≠ k → Store.see (update m k (some x)) now j = m.see now j := fun j hj => see_congr (by rw [update_of_ne hj])
  refine ⟨fun j => ?_, fun j z hz => ?_⟩
  · by_cases hj : j = k
    · subst hj
      exact see_congr (by rw [update_self, hk, Option.map_some, hx])
    · rw [hs j hj, ← h.1]
      exact see_congr (by simp only [hd j hj])
  · by_cases hj : j = k
    · subst hj
      unfold Store.see at hz
      rw [update_self, Option.filter_eq_some_iff, Option.some.injEq] at hz
      rw [← hz.1]; exact hl
    · rw [hs j hj] at hz
      exact h.2 j z hz

theorem Agrees.same {now : Int} {d d' : Spec.Dict} {m : Store} (h : Agrees now d m) (hd : d' = d) : Agrees now d' m := hd ▸ h

/-! ### Replies -/

/-- Exactly this reply, and the connection stays open. -/
def Sends (out : List W) (r : Reply) : Prop := Answers out r ∧ W.close ∉ out

theorem sends_int (n : Int) (h : IsI64 n) : Sends [.int n] (.int n) := ⟨answers_val (.int n) h fun _ => rfl, by simp⟩
theorem sends_ok : Sends [.str [79, 75]] okay := ⟨answers_val (.string [79, 75]) (by unfold Val.Ok; decide) fun _ => rfl, by simp⟩
theorem sends_null : Sends [.null] .null := ⟨answers_val .null trivial fun _ => rfl, by simp⟩
theorem sends_err (m : ErrMsg) (h : m.quotes = none) : Sends [.err m] (.error m.text) :=
  ⟨answers_val (.error m.text) (text_printable m fun t ht => by rw [h] at ht; cases ht) fun _ => rfl, by simp⟩

theorem longest_lt : longest < 2 ^ 63 := by decide

/-- The value written for a lookup. -/
def valOf : Option Kept → Val
  | some x => .bulk x.value
  | none => .null

theorem valueOrNull_eq {now : Int} {d : Spec.Dict} {m : Store} (h : Agrees now d m) (k : Bytes) (buf : Bytes) :
    render buf (valueOrNull d now k) = (valOf (m.see now k)).write buf := by
  rw [h.get]
  unfold valueOrNull
  cases d.get now k <;> rfl

theorem valOf_ok {now : Int} {d : Spec.Dict} {m : Store} (h : Agrees now d m) (k : Bytes) : (valOf (m.see now k)).Ok := by
  cases hx : m.see now k with
  | none => trivial
  | some x =>
    have := (h.2 k x hx).1
    have := longest_lt
    show x.value.length < 2 ^ 64
    omega

theorem valOf_reply (o : Option Kept) : (valOf o).reply = asReply o := by cases o <;> rfl

theorem valueOrNull_close (d : Spec.Dict) (now : Int) (k : Bytes) : W.close ≠ valueOrNull d now k := by
  unfold valueOrNull; split <;> simp

theorem sends_value {now : Int} {d : Spec.Dict} {m : Store} (h : Agrees now d m) (k : Bytes) :
    Sends [valueOrNull d now k] (asReply (m.see now k)) := by
  refine ⟨?_, by simpa using valueOrNull_close d now k⟩
  rw [← valOf_reply]
  exact answers_val _ (valOf_ok h k) fun buf => valueOrNull_eq h k buf

theorem sends_values {now : Int} {d : Spec.Dict} {m : Store} (h : Agrees now d m) (ks : List Bytes) (hl : ks.length < 2 ^ 64) :
    Sends (.arr ks.length :: ks.map (valueOrNull d now)) (.array (ks.map fun k => asReply (m.see now k))) := by
  have hall : ∀ ks : List Bytes, Val.AllOk (ks.map fun k => valOf (m.see now k)) := by
    intro ks
    induction ks with
    | nil => trivial
    | cons k ks ih => exact ⟨valOf_ok h k, ih⟩
  have hwr : ∀ (ks : List Bytes) buf, renderAll (ks.map (valueOrNull d now)) buf = Val.writeAll buf (ks.map fun k => valOf (m.see now k)) := by
    intro ks
    induction ks with
    | nil => intro buf; rfl
    | cons k ks ih =>
      intro buf
      simp only [List.map_cons, Val.writeAll]
      rw [← valueOrNull_eq h, ← ih]
      rfl
  have hrep : ∀ ks : List Bytes, Val.replies (ks.map fun k => valOf (m.see now k)) = ks.map fun k => asReply (m.see now k) := by
    intro ks
    induction ks with
    | nil => rfl
    | cons k ks ih => simp only [List.map_cons, Val.replies, valOf_reply, ih]
  refine ⟨?_, ?_⟩
  · have := answers_val (out := .arr ks.length :: ks.map (valueOrNull d now)) (.array (ks.map fun k => valOf (m.see now k)))
      ⟨by simpa using hl, hall ks⟩ (fun buf => by
        simp only [Val.write, List.length_map]
        rw [← hwr]; rfl)
    rw [Val.reply, hrep] at this
    exact this
  · simp only [List.mem_cons, reduceCtorEq, List.mem_map, false_or, not_exists, not_and]
    exact fun k _ hc => valueOrNull_close d now k hc.symm

/-! ### One command -/

section
variable {env : Spec.Env} {e : Env} {pw : Bytes} {y : Sys} {s s' : Spec.State} {out : List W} {m : Store} {args : List Bytes} {t0 : Int}

/-- A key is as before, or holds nothing, or holds something new with these flags. -/
def Marked (now : Int) (a : Ask) (s : Spec.State) (m : Store) (s' : Spec.State) (m' : Store) : Prop :=
  ∀ k, (s'.dict k = s.dict k ∧ m' k = m k) ∨ m' k = none ∨
    ∃ it, s'.dict k = some it ∧ m' k = some (kept it) ∧ it.flags = newFlags a ((s.dict.get now k).map (·.flags))

/-- A command does what the user has in mind; what is kept is known from `t0` on. -/
def Done (env : Spec.Env) (e : Env) (pw : Bytes) (y : Sys) (t0 : Int) (m : Store) (a : Ask) (args : List Bytes) (s : Spec.State) (out : List W) (s' : Spec.State) : Prop :=
  Executes env alone false e pw (admin y) args s out s' → ∃ r m', Serves e.now m a r m' ∧ Sends out r ∧ Agrees t0 s'.dict m' ∧ Marked e.now a s m s' m'

theorem marked_same {now : Int} {a : Ask} (h : s'.dict = s.dict) : Marked now a s m s' m := fun k => Or.inl ⟨by rw [h], rfl⟩

theorem marked_put {now : Int} {a : Ask} {k : Bytes} {it : Spec.Item} {x : Kept} (hk : s'.dict k = some it) (hd : ∀ j, j ≠ k → s'.dict j = s.dict j) (hx : kept it = x)
    (hf : it.flags = newFlags a ((s.dict.get now k).map (·.flags))) : Marked now a s m s' (update m k (some x)) := by
  intro j
  by_cases h : j = k
  · subst h
    exact Or.inr (Or.inr ⟨it, hk, by rw [update_self, hx], hf⟩)
  · exact Or.inl ⟨hd j h, update_of_ne h _ _⟩

theorem kept_span {v : Bytes} {now x u : Int} {f c : Nat} (h : 0 < now) (hx : 0 < x * u) :
    kept ⟨v, fromNow now x u, f, c⟩ = ⟨v, (Life.span (x * u)).upto now none⟩ := by
  unfold kept fromNow lastTime Life.upto
  simp only []
  rw [if_neg (by omega)]

theorem fit_span {now x : Int} {old : Option Kept} (d : Int) (h : (Life.span x).upto now old = some d) : d < 2 ^ 63 := by
  simp only [Life.upto, Option.some.injEq] at h
  omega

theorem done_get {w k : Bytes} (hp : e.proto = .resp) (hw : Spells w getName) (hle : t0 ≤ e.now) (h0' : Agrees t0 s.dict m) : Done env e pw y t0 m (.get k) [w, k] s out s' := by
  intro hx
  have h := h0'.later hle
  obtain ⟨h1, rfl⟩ := (get_single hp hw).1 hx
  cases h1
  exact ⟨_, _, .get, sends_value h k, h0', marked_same rfl⟩

theorem done_mget {w : Bytes} {ks : List Bytes} (hp : e.proto = .resp) (hw : Spells w mgetName) (hks : ks ≠ []) (hl : ks.length < 2 ^ 64)
    (hle : t0 ≤ e.now) (h0' : Agrees t0 s.dict m) : Done env e pw y t0 m (.mget ks) (w :: ks) s out s' := by
  intro hx
  have h := h0'.later hle
  obtain ⟨rfl, rfl⟩ := mget_alone hp hw hks hx
  exact ⟨_, _, .mget, sends_values h ks hl, h0', marked_same rfl⟩

theorem each_counts {now : Int} {ks : List Bytes} {ns : List Nat}
    (he : Each (fun k s (n : Nat) s' => alone s s' ∧ n = if s'.dict.get now k = none then 0 else 1) ks s ns s') :
    s' = s ∧ ns.sum = ks.countP fun k => (s.dict.get now k).isSome := by
  induction he with
  | nil s => exact ⟨rfl, rfl⟩
  | @cons k ks s n s1 ns s2 h1 _ ih =>
    obtain ⟨rfl, ih2⟩ := ih
    obtain ⟨h1, h2⟩ := h1
    cases h1
    refine ⟨rfl, ?_⟩
    rw [List.sum_cons, ih2, List.countP_cons, h2, Nat.add_comm]
    congr 1
    cases Spec.Dict.get _ now k <;> simp

theorem seen_some (h : Agrees e.now s.dict m) (k : Bytes) : (s.dict.get e.now k).isSome = (m.see e.now k).isSome := by
  rw [h.get, Option.isSome_map]

theorem count_small {ks : List Bytes} {p : Bytes → Bool} (hl : ks.length < 2 ^ 63) : IsI64 ((ks.countP p : Nat) : Int) := by
  have := List.countP_le_length (l := ks) (p := p)
  unfold IsI64
  omega

theorem done_exist {w : Bytes} {ks : List Bytes} (hp : e.proto = .resp) (hw : Spells w existsName) (hks : ks ≠ []) (hl : ks.length < 2 ^ 63)
    (hle : t0 ≤ e.now) (h0' : Agrees t0 s.dict m) : Done env e pw y t0 m (.exist ks) (w :: ks) s out s' := by
  intro hx
  have h := h0'.later hle
  obtain ⟨ns, rfl, he⟩ := exists_counts hp hw hks hx
  obtain ⟨rfl, h1⟩ := each_counts he
  rw [h1]
  simp only [seen_some h]
  exact ⟨_, _, .exist, sends_int _ (count_small hl), h0', marked_same rfl⟩

theorem done_touch {w : Bytes} {ks : List Bytes} (hp : e.proto = .resp) (hw : Spells w touchName) (hks : ks ≠ []) (hl : ks.length < 2 ^ 63)
    (hle : t0 ≤ e.now) (h0' : Agrees t0 s.dict m) : Done env e pw y t0 m (.touch ks) (w :: ks) s out s' := by
  intro hx
  have h := h0'.later hle
  obtain ⟨ns, rfl, he⟩ := touch_counts hp hw hks hx
  obtain ⟨rfl, h1⟩ := each_counts he
  rw [h1]
  simp only [seen_some h]
  exact ⟨_, _, .touch, sends_int _ (count_small hl), h0', marked_same rfl⟩

theorem done_ttl {ms : Bool} {w k : Bytes} (hp : e.proto = .resp) (h0 : 0 < e.now) (hnow : IsI64 e.now) (hw : Spells w (ttlName ms))
    (hle : t0 ≤ e.now) (h0' : Agrees t0 s.dict m) : Done env e pw y t0 m (.ttl ms k) [w, k] s out s' := by
  intro hx
  have h := h0'.later hle
  obtain ⟨h1, n, rfl, h2, h3⟩ := ttl_exact hw hp h0 hx
  cases h1
  have hg := h.get k
  cases hd : s.dict.get e.now k with
  | none =>
    rw [hd] at hg
    rw [h2 hd]
    exact ⟨_, _, .ttlMissing hg, sends_int _ (by unfold IsI64; omega), h0', marked_same rfl⟩
  | some it =>
    rw [hd] at hg
    obtain ⟨h4, h5⟩ := h3 it hd
    unfold kept at hg
    by_cases hz : it.expires = 0
    · rw [Option.map_some, if_pos hz] at hg
      rw [h4 hz]
      exact ⟨_, _, .ttlEver hg, sends_int _ (by unfold IsI64; omega), h0', marked_same rfl⟩
    · rw [Option.map_some, if_neg hz] at hg
      obtain ⟨h6, h7⟩ := h5 hz
      have hn : n = (it.expires - e.now) / if ms then 1000000 else 1000000000 := by
        cases ms <;> simp only [if_true, Bool.false_eq_true, if_false] at h6 h7 ⊢ <;> omega
      have hexp : it.expires < 2 ^ 63 := (h.2 k _ hg).2 _ rfl
      have hvis : e.now < it.expires := by
        unfold Spec.Dict.get at hd
        rw [Option.filter_eq_some_iff] at hd
        have := hd.2
        unfold Spec.Item.visible at this
        simpa [hz] using this
      have hin : IsI64 n := by
        unfold IsI64 at *
        cases ms <;> simp only [if_true, Bool.false_eq_true, if_false] at h6 h7 <;> omega
      rw [hn] at hin ⊢
      exact ⟨_, _, .ttl hg, sends_int _ hin, h0', marked_same rfl⟩

theorem done_del {w : Bytes} {ks : List Bytes} (hp : e.proto = .resp) (hw : Spells w delName) (hks : ks ≠ []) (hl : ks.length < 2 ^ 63)
    (h : Agrees e.now s.dict m) : Done env e pw y e.now m (.del ks) (w :: ks) s out s' := by
  intro hx
  obtain ⟨rfl, h1, h2⟩ := del_alone hp hw hks hx
  have hc : countPresent s.dict e.now ks = ks.dedup.countP fun k => (m.see e.now k).isSome := by
    unfold countPresent
    rw [← List.countP_eq_length_filter]
    simp only [seen_some h]
  rw [hc]
  have hle : ks.dedup.length ≤ ks.length := (List.dedup_sublist ks).length_le
  refine ⟨_, _, .del, sends_int _ (count_small (by omega)), ⟨fun k => ?_, fun k x hk => ?_⟩, fun k => ?_⟩
  · rw [see_get]
    by_cases hm : k ∈ ks
    · rw [h1 k hm]
      unfold Store.see
      simp only [if_pos hm]; rfl
    · have : Store.see (fun k => if k ∈ ks then none else m k) e.now k = m.see e.now k := see_congr (by simp only [if_neg hm])
      rw [this, h.get]
      unfold Spec.Dict.get
      rw [h2 k hm]
  · by_cases hm : k ∈ ks
    · unfold Store.see at hk
      simp only [if_pos hm] at hk
      cases hk
    · have : Store.see (fun k => if k ∈ ks then none else m k) e.now k = m.see e.now k := see_congr (by simp only [if_neg hm])
      rw [this] at hk
      exact h.2 k x hk
  · by_cases hm : k ∈ ks
    · exact Or.inr (Or.inl (if_pos hm))
    · exact Or.inl ⟨h2 k hm, if_neg hm⟩

theorem done_expire {w k t : Bytes} {x : Int} (hp : e.proto = .resp) (h0 : 0 < e.now) (hnow : IsI64 e.now) (hw : Spells w expireName) (ht : IntArg t x)
    (hx0 : 0 < x) (hle : t0 ≤ e.now) (h0' : Agrees t0 s.dict m) : Done env e pw y t0 m (.expire k x) [w, k, t] s out s' := by
  intro hx
  have h := h0'.later hle
  obtain ⟨s1, h1, h2, h3⟩ := expire_exact_partial hw hp hnow h0 ht (fun hc => by omega) hx
  cases h1
  have hg := h.get k
  cases hd : s.dict.get e.now k with
  | none =>
    rw [hd] at hg
    obtain ⟨rfl, rfl⟩ := h2 hd
    exact ⟨_, _, .expireMissing hg, sends_int _ (by unfold IsI64; omega), h0', marked_same rfl⟩
  | some it =>
    rw [hd] at hg
    rcases h3 it hd with ⟨rfl, ⟨c, h4, h5⟩, _⟩ | ⟨hc, _⟩
    · exact ⟨_, _, .expire hg, sends_int _ (by unfold IsI64; omega), h0'.put h4 h5 (kept_span h0 (by omega)) ⟨(h.2 k _ hg).1, fit_span (old := none)⟩, marked_put h4 h5 (kept_span h0 (by omega)) (by rw [hd]; rfl)⟩
    · cases hc

/-- The options of a condition. -/
def condOpts : Cond → List Opt
  | .always => []
  | .new => [.nx]
  | .old => [.xx]

/-- The options of a life. -/
def lifeOpts (now : Int) : Life → List Opt
  | .ever => []
  | .kept => [.keepttl]
  | .span x => [.expire (min (now + x) (2 ^ 63 - 1))]

theorem cond_written {c : Cond} {cs : List Bytes} (now : Int) (h : CondWords c cs) : ∃ wss, List.Forall₂ (Written now) (condOpts c) wss ∧ cs = wss.flatten := by
  cases h with
  | always => exact ⟨[], .nil, rfl⟩
  | new hw => exact ⟨[[_]], .cons (.nx hw) .nil, rfl⟩
  | old hw => exact ⟨[[_]], .cons (.xx hw) .nil, rfl⟩

theorem life_written {l : Life} {ls : List Bytes} (now : Int) (h : LifeWords l ls) :
    (∃ wss, List.Forall₂ (Written now) (lifeOpts now l) wss ∧ ls = wss.flatten) ∧ ∀ x, l = .span x → 0 < x := by
  cases h with
  | ever => exact ⟨⟨[], .nil, rfl⟩, by simp⟩
  | kept hw => exact ⟨⟨[[_]], .cons (.keepttl hw) .nil, rfl⟩, by simp⟩
  | ex hw ht hx => exact ⟨⟨[[_, _]], .cons (.ex hw ht hx) .nil, rfl⟩, by intro z hz; cases hz; omega⟩
  | px hw ht hx => exact ⟨⟨[[_, _]], .cons (.px hw ht hx) .nil, rfl⟩, by intro z hz; cases hz; omega⟩

theorem fit_upto {k : Bytes} {l : Life} {now : Int} {d : Spec.Dict} {v : Bytes} (h : Agrees now d m) (hv : v.length ≤ longest) :
    Fit ⟨v, l.upto now (m.see now k)⟩ := by
  refine ⟨hv, fun d hd => ?_⟩
  cases l with
  | ever => cases hd
  | kept =>
    simp only [Life.upto, Option.bind_eq_some_iff] at hd
    obtain ⟨x, h1, h2⟩ := hd
    exact (h.2 k x h1).2 d h2
  | span x => exact fit_span (old := none) d hd

theorem done_set {w k v : Bytes} {c : Cond} {l : Life} {cs ls ws : List Bytes} (hp : e.proto = .resp) (h0 : 0 < e.now) (hnow : IsI64 e.now)
    (hlow : e.lowmem = false) (hw : Spells w setName) (hc : CondWords c cs) (hl : LifeWords l ls) (hws : ws = cs ++ ls ∨ ws = ls ++ cs)
    (hv : v.length ≤ longest) (hle : t0 ≤ e.now) (h0' : Agrees t0 s.dict m) : Done env e pw y t0 m (.set k v c l) (w :: k :: v :: ws) s out s' := by
  intro hx
  have h := h0'.later hle
  obtain ⟨wc, hc1, hc2⟩ := cond_written e.now hc
  obtain ⟨⟨wl, hl1, hl2⟩, hpos⟩ := life_written e.now hl
  obtain ⟨os, wss, ho, hw1, hw2⟩ : ∃ os wss, (os = condOpts c ++ lifeOpts e.now l ∨ os = lifeOpts e.now l ++ condOpts c) ∧
      List.Forall₂ (Written e.now) os wss ∧ ws = wss.flatten := by
    rcases hws with rfl | rfl
    · exact ⟨_, wc ++ wl, Or.inl rfl, List.rel_append hc1 hl1, by rw [hc2, hl2, List.flatten_append]⟩
    · exact ⟨_, wl ++ wc, Or.inr rfl, List.rel_append hl1 hc1, by rw [hc2, hl2, List.flatten_append]⟩
  subst hw2
  obtain ⟨_, h2⟩ := set_exact_partial hw hp hnow h0 hw1 hx
  have hno : ¬ Contradictory os := by
    rcases ho with rfl | rfl <;> cases c <;> cases l <;> simp [Contradictory, condOpts, lifeOpts, deadlineOf, Opt.deadline?]
  have href : Refused env.usecas os (s.dict.get e.now k) ↔ ¬ c.holds (m.see e.now k) := by
    rw [h.get]
    have htok : tokenOf os = none := by rcases ho with rfl | rfl <;> cases c <;> cases l <;> rfl
    cases s.dict.get e.now k <;> simp only [Refused, htok] <;> rcases ho with rfl | rfl <;> cases c <;> cases l <;>
      simp [Cond.holds, condOpts, lifeOpts]
  have hget : .get ∉ os := by
    rcases ho with rfl | rfl <;> cases c <;> cases l <;> simp [condOpts, lifeOpts]
  have hnew : ∀ cas, kept ⟨v, newDeadline os (s.dict.get e.now k), flagsOf os, cas⟩ = ⟨v, l.upto e.now (m.see e.now k)⟩ := by
    intro cas
    rw [h.get]
    have hz : ∀ x, l = .span x → min (e.now + x) (2 ^ 63 - 1) ≠ 0 := by
      intro x hx
      have := hpos x hx
      omega
    have hdl : deadlineOf os = match l with | .span x => some (min (e.now + x) (2 ^ 63 - 1)) | _ => none := by
      rcases ho with rfl | rfl <;> cases c <;> cases l <;> rfl
    have hkeep : .keepttl ∈ os ↔ l = .kept := by
      rcases ho with rfl | rfl <;> cases c <;> cases l <;> simp [condOpts, lifeOpts]
    unfold kept
    congr 1
    cases s.dict.get e.now k with
    | none =>
      cases l with
      | span x => simp only [newDeadline, hdl, Option.getD_some, if_neg (hz x rfl), Life.upto]
      | _ => simp [newDeadline, hdl, Life.upto]
    | some it =>
      cases l with
      | span x => simp only [newDeadline, hkeep, reduceCtorEq, if_false, hdl, Option.getD_some, if_neg (hz x rfl), Life.upto]
      | ever => simp [newDeadline, hkeep, hdl, Life.upto]
      | kept => simp [newDeadline, hkeep, Life.upto]
  obtain ⟨s1, h3, h4⟩ := h2 hno
  cases h3
  rcases h4 with ⟨hc, _⟩ | ⟨h4, rfl, h5⟩ | ⟨h4, rfl, cas, h5⟩
  · simp [hlow] at hc
  · exact ⟨_, _, .setNot (href.1 h4), sends_null, h0'.same h5, marked_same h5⟩
  · refine ⟨_, _, .set (by by_contra hc; exact h4 (href.2 hc)), ?_, ?_, ?_⟩
    · unfold acceptedReply
      rw [if_neg hget]
      exact sends_ok
    · rcases h5 with ⟨h6, h7⟩ | ⟨hc, _⟩
      · exact h0'.put h6 h7 (hnew cas) (fit_upto h hv)
      · rw [hlow] at hc; cases hc
    · rcases h5 with ⟨h6, h7⟩ | ⟨hc, _⟩
      · refine marked_put h6 h7 (hnew cas) ?_
        rcases ho with rfl | rfl <;> cases c <;> cases l <;> rfl
      · rw [hlow] at hc; cases hc

theorem done_setex {w k v t : Bytes} {x : Int} (hp : e.proto = .resp) (h0 : 0 < e.now) (hnow : IsI64 e.now) (hlow : e.lowmem = false)
    (hw : Spells w setexName) (ht : IntArg t x) (hx0 : 0 < x) (hv : v.length ≤ longest) (hle : t0 ≤ e.now) (h0' : Agrees t0 s.dict m) :
    Done env e pw y t0 m (.set k v .always (.span (x * 1000000000))) [w, k, t, v] s out s' := by
  intro hx
  have h := h0'.later hle
  obtain ⟨s1, h1, h2⟩ := (setex_exact hw hp hnow h0 ht hx).2 hx0
  cases h1
  rcases h2 with ⟨hc, _⟩ | ⟨rfl, cas, h3⟩
  · simp [hlow] at hc
  · rcases h3 with ⟨h6, h7⟩ | ⟨hc, _⟩
    · exact ⟨_, _, .set trivial, sends_ok, h0'.put h6 h7 (kept_span h0 (by omega)) ⟨hv, fit_span (old := none)⟩, marked_put h6 h7 (kept_span h0 (by omega)) rfl⟩
    · rw [hlow] at hc; cases hc

theorem done_swap {w k v g : Bytes} (hp : e.proto = .resp) (h0 : 0 < e.now) (hnow : IsI64 e.now) (hlow : e.lowmem = false)
    (hw : Spells w setName) (hg : Spells g [103, 101, 116]) (hv : v.length ≤ longest) (hle : t0 ≤ e.now) (h0' : Agrees t0 s.dict m) :
    Done env e pw y t0 m (.swap k v) [w, k, v, g] s out s' := by
  intro hx
  have h := h0'.later hle
  obtain ⟨s1, h1, h2⟩ := (set_exact_partial (os := [.get]) (wss := [[g]]) hw hp hnow h0 (.cons (.get hg) .nil) hx).2
    (by simp [Contradictory])
  cases h1
  rcases h2 with ⟨hc, _⟩ | ⟨h4, _⟩ | ⟨_, rfl, cas, h5⟩
  · simp [hlow] at hc
  · exfalso
    cases hd : s.dict.get e.now k <;> rw [hd] at h4 <;> simp [Refused, tokenOf, Opt.token?] at h4
  · refine ⟨_, _, .swap, ?_, ?_, ?_⟩
    · have : acceptedReply [.get] (s.dict.get e.now k) = valueOrNull s.dict e.now k := by
        unfold acceptedReply valueOrNull
        rw [if_pos (by simp)]
        cases s.dict.get e.now k <;> rfl
      rw [this]
      exact sends_value h k
    · rcases h5 with ⟨h6, h7⟩ | ⟨hc, _⟩
      · refine h0'.put h6 h7 ?_ ⟨hv, fun _ hc => by cases hc⟩
        unfold kept
        cases s.dict.get e.now k <;> simp [newDeadline, deadlineOf, Opt.deadline?]
      · rw [hlow] at hc; cases hc
    · rcases h5 with ⟨h6, h7⟩ | ⟨hc, _⟩
      · refine marked_put h6 h7 ?_ rfl
        unfold kept
        cases s.dict.get e.now k <;> simp [newDeadline, deadlineOf, Opt.deadline?]
      · rw [hlow] at hc; cases hc

/-- All calls load, or store under `key` without evicting. -/
def OnlyAt {α : Type} (key : Bytes) : Prog α → Prop
  | .ret _ => True
  | .call c k => (match c with
      | .load _ _ cb => ∀ f it, cb = some f → f it = none
      | .store a => a.key = key ∧ a.lowmem = false
      | _ => False) ∧ ∀ r, OnlyAt key (k r)

theorem onlyAt_frame {α : Type} {key : Bytes} {p : Prog α} (h : OnlyAt key p) {oom : Bool} {now : Int} {a : α} (hr : Runs env alone oom now p s a s') :
    ∀ k, k ≠ key → s'.dict k = s.dict k := by
  induction p generalizing s with
  | ret b => obtain ⟨_, rfl⟩ := runs_ret hr; exact fun _ _ => rfl
  | call c f ih =>
    obtain ⟨s1, r, s2, h1, h2, h3⟩ := runs_call hr
    cases h1
    intro k hk
    rw [ih r (h.2 r) h3 k hk]
    obtain ⟨hc, _⟩ := h
    cases c with
    | load j nt cb =>
      simp only [] at hc
      unfold Spec.Step at h2
      simp only [] at h2
      split at h2
      · rw [h2.2]
      · split at h2
        · rw [h2.2]
        · rename_i f'
          rw [hc f' _ rfl] at h2
          rw [h2.2]
    | store a =>
      simp only [] at hc
      obtain ⟨rfl, hlow⟩ := hc
      unfold Spec.Step at h2
      simp only [hlow, Bool.false_and, Bool.false_eq_true, if_false, false_and, or_false] at h2
      rcases h2 with ⟨_, _, rfl⟩ | h2
      · rfl
      · cases hg : s.dict.get now a.key with
        | none =>
          simp only [hg] at h2
          split_ifs at h2 <;> rw [h2.2] <;> exact update_of_ne hk _ _
        | some it =>
          simp only [hg] at h2
          split_ifs at h2 <;> rw [h2.2] <;> exact update_of_ne hk _ _
    | _ => exact absurd hc (by simp)

theorem onlyAt_ite {α : Type} {key : Bytes} {q : Prop} [Decidable q] {p p' : Prog α} (h : OnlyAt key p) (h' : OnlyAt key p') : OnlyAt key (if q then p else p') := by
  split
  · exact h
  · exact h'

theorem onlyAt_append {w k v : Bytes} : OnlyAt k (cmdAPPEND e [w, k, v]) := by
  unfold cmdAPPEND
  refine ⟨fun f it hf => by cases hf; rfl, fun r => ?_⟩
  have hs : ∀ (u : Bytes) (x : Int) (cas fl : Nat) (g : Spec.Reply → Prog (List W)), (∀ r, OnlyAt k (g r)) → OnlyAt k (Prog.call (plain k u x cas fl) g) :=
    fun u x cas fl g hg => ⟨⟨rfl, rfl⟩, hg⟩
  refine onlyAt_ite (onlyAt_ite trivial (hs _ _ _ _ _ fun r => onlyAt_ite trivial (onlyAt_ite trivial trivial)))
    (onlyAt_ite trivial (hs _ _ _ _ _ fun r => onlyAt_ite trivial (onlyAt_ite trivial trivial)))

theorem onlyAt_incr {cmd k : Bytes} {d : Int} {decr uns : Bool} : OnlyAt k (execIncr e cmd k d decr uns) := by
  unfold execIncr
  refine ⟨fun f it hf => by cases hf; rfl, fun r => ?_⟩
  simp only []
  split
  · exact onlyAt_ite trivial trivial
  · exact onlyAt_ite trivial (onlyAt_ite trivial ⟨⟨rfl, rfl⟩, fun r => onlyAt_ite trivial (onlyAt_ite trivial trivial)⟩)

theorem executes_append {front : Bool} {w k v : Bytes} (hw : Spells w (appendName front)) {I : Spec.State → Spec.State → Prop}
    (hx : Executes env I false e pw (admin y) [w, k, v] s out s') : Runs env I false e.now (cmdAPPEND e [w, k, v]) s out s' := by
  cases front
  · exact (executes_iff hw (by decide : (_, Fn.cmdAPPEND) ∈ cmds) rfl).1 hx
  · exact (executes_iff hw (by decide : (_, Fn.cmdPREPEND) ∈ cmds) rfl).1 hx

theorem done_join {front : Bool} {w k v : Bytes} (hp : e.proto = .resp) (h0 : 0 < e.now)
    (hw : Spells w (appendName front)) (hv : v.length ≤ longest) (hle : t0 ≤ e.now) (h0' : Agrees t0 s.dict m) :
    Done env e pw y t0 m (.join front k v) [w, k, v] s out s' := by
  intro hx
  have h := h0'.later hle
  have hfr := onlyAt_frame onlyAt_append (executes_append hw hx)
  obtain ⟨h1, h2⟩ := append_exact hw (Or.inl hp) h0 (hx.mono (alone_held env k))
  have hg := h.get k
  have hsame : Same env k s s' → s'.dict = s.dict := by
    intro hs
    funext j
    by_cases hj : j = k
    · subst hj; exact hs j rfl
    · exact hfr j hj
  have hll := longest_lt
  cases hd : s.dict.get e.now k with
  | none =>
    rw [hd] at hg
    rcases (h2 hd).2 hp with ⟨rfl, c, h3, _⟩ | ⟨hc, _⟩
    · exact ⟨_, _, .joinNew hg, sends_int _ (by unfold IsI64; omega), h0'.put h3 hfr rfl ⟨hv, fun _ hc => by cases hc⟩, marked_put h3 hfr rfl (by rw [hd]; rfl)⟩
    · cases hc
  | some it =>
    rw [hd] at hg
    obtain ⟨h3, h4⟩ := h1 it hd
    have hlen : (joinedValue front it.value v).length = v.length + (kept it).value.length := by
      unfold joinedValue kept
      cases front <;> simp [Nat.add_comm]
    rw [hlen] at h3 h4
    by_cases hl : v.length + (kept it).value.length ≤ longest
    · rcases h4 hl with ⟨rfl, c, h5, _⟩ | ⟨hc, _⟩
      · refine ⟨_, _, .join hg hl, ?_, h0'.put h5 hfr ?_ ⟨?_, (h.2 k _ hg).2⟩, marked_put h5 hfr (by unfold kept joinedValue; rfl) (by rw [hd]; rfl)⟩
        · unfold storedReply
          rw [if_neg (by rw [hp]; decide)]
          exact sends_int _ (by unfold IsI64; omega)
        · unfold kept joinedValue; rfl
        · have : (if front then v ++ (kept it).value else (kept it).value ++ v).length = v.length + (kept it).value.length := by
            cases front <;> simp [Nat.add_comm]
          show (if front then v ++ (kept it).value else (kept it).value ++ v).length ≤ longest
          omega
      · cases hc
    · obtain ⟨rfl, h5⟩ := h3 (by unfold longest at hl; omega)
      exact ⟨_, _, .joinTooLong hg (by omega), sends_err _ rfl, h0'.same (hsame h5), marked_same (hsame h5)⟩

theorem shown_length {x : Int} (h : IsI64 x) : (shown x).length ≤ longest := by
  have h1 := i64_text_roundtrip x h
  rw [parseI64_iff] at h1
  rw [← i64toa_shown]
  unfold longest
  rcases h1 with ⟨h2, _⟩ | ⟨h2, _⟩
  · rw [h2]; simp
  · omega

theorem done_add {k amount : Bytes} {decr : Bool} {δ : Int} (hp : e.proto = .resp) (h0 : 0 < e.now)
    (ha : IncrArgs args decr false k amount) (hδ : IsNumber amount δ) (hr : IsI64 (result decr 0 δ)) (hle : t0 ≤ e.now) (h0' : Agrees t0 s.dict m) :
    Done env e pw y t0 m (.add k (result decr 0 δ)) args s out s' := by
  intro hx
  have h := h0'.later hle
  have hnm : e.proto ≠ .memcache := by rw [hp]; decide
  have hnp : e.proto ≠ .postgres := by rw [hp]; decide
  rcases incr_runs ha hx with ⟨h1, _, _⟩ | ⟨δ', cmd, h1, h2⟩
  · rw [isNumber_iff, h1] at hδ; cases hδ
  · rw [isNumber_iff, h1, Option.some.injEq] at hδ
    subst hδ
    have hfr := onlyAt_frame onlyAt_incr h2
    have hsame : Same env k s s' → s'.dict = s.dict := by
      intro hs
      funext j
      by_cases hj : j = k
      · subst hj; exact hs j rfl
      · exact hfr j hj
    have hin : ∀ x, InR false x ↔ IsI64 x := by intro x; unfold InR IsI64; simp
    have hg := h.get k
    have hsum : ∀ x, x + result decr 0 δ' = result decr x δ' := by intro x; unfold result; split <;> omega
    rcases execIncr_cases h0 (h2.mono (alone_held env k)) with ⟨⟨it, b1, b2⟩, b3, rfl⟩ | ⟨_, b2, _⟩ | ⟨_, x, b1, b2⟩
    · rw [b1] at hg
      rw [if_neg hnm]
      refine ⟨_, _, .addNot hg ?_, sends_err _ rfl, h0'.same (hsame b3), marked_same (hsame b3)⟩
      rintro ⟨n, hn⟩
      rw [isNumber_iff] at hn
      have : (kept it).value = it.value := rfl
      rw [this, b2] at hn
      cases hn
    · exact absurd b2 hnm
    · rcases b1 with ⟨b1, rfl⟩ | ⟨it, b1, b3⟩
      · rw [b1] at hg
        rcases b2 with ⟨b4, _⟩ | ⟨_, ⟨hc, _⟩ | ⟨rfl, c, b5, _⟩⟩
        · exact absurd ((hin _).2 hr) b4
        · cases hc
        · rw [wrap_id _ _ ((hin _).2 hr), if_neg hnm, if_neg hnp]
          rw [wrap_id _ _ ((hin _).2 hr)] at b5
          refine ⟨_, _, .addNew hg, sends_int _ hr, h0'.put b5 hfr ?_ ⟨shown_length hr, fun _ hc => by cases hc⟩, marked_put b5 hfr ?_ (by rw [b1]; rfl)⟩
          all_goals
            rw [b1]
            unfold kept text64
            simp [i64toa_shown]
      · rw [b1] at hg
        have hnum : IsNumber (kept it).value x := isNumber_iff.2 b3
        rcases b2 with ⟨b4, _, b5, rfl⟩ | ⟨b4, ⟨hc, _⟩ | ⟨rfl, c, b5, _⟩⟩
        · exact ⟨_, _, .addOver hg hnum (by rw [hsum, ← hin]; exact b4), sends_err _ rfl, h0'.same (hsame b5), marked_same (hsame b5)⟩
        · cases hc
        · have hi := b4.resolve_right hnm
          rw [wrap_id _ _ hi, if_neg hnm, if_neg hnp]
          rw [wrap_id _ _ hi] at b5
          have hi' := (hin _).1 hi
          refine ⟨_, _, .add hg hnum (by rw [hsum]; exact hi'), ?_, h0'.put b5 hfr ?_ ⟨?_, (h.2 k _ hg).2⟩, marked_put b5 hfr ?_ (by rw [b1]; rfl)⟩
          · rw [hsum]; exact sends_int _ hi'
          · rw [b1, hsum]
            unfold kept text64
            simp [i64toa_shown]
          · rw [hsum]; exact shown_length hi'
          · rw [b1, hsum]
            unfold kept text64
            simp [i64toa_shown]

theorem done_ping {w : Bytes} (hp : e.proto = .resp) (hw : Spells w pingName) (hle : t0 ≤ e.now) (h0' : Agrees t0 s.dict m) : Done env e pw y t0 m .ping [w] s out s' := by
  intro hx
  have h := h0'.later hle
  obtain ⟨h1, rfl⟩ := ping_exact hw hp hx
  refine ⟨_, _, .ping, ⟨h1, ?_⟩, h0', marked_same rfl⟩
  rw [executes_iff hw (by decide : (pingName, Fn.cmdPING) ∈ cmds) (p := cmdPING e [w]) rfl] at hx
  unfold cmdPING at hx
  obtain ⟨rfl, _⟩ := runs_ret hx
  rw [hp, if_neg (by decide)]
  simp

theorem done_echo {w t : Bytes} (hp : e.proto = .resp) (hw : Spells w echoName ∨ Spells w pingName) (ht : t.length < 2 ^ 64) (hle : t0 ≤ e.now) (h0' : Agrees t0 s.dict m) :
    Done env e pw y t0 m (.echo t) [w, t] s out s' := by
  intro hx
  have h := h0'.later hle
  obtain ⟨h1, rfl⟩ := echo_exact hw hp ht hx
  refine ⟨_, _, .echo, ⟨h1, ?_⟩, h0', marked_same rfl⟩
  rcases hw with hw | hw
  · rw [executes_iff hw (by decide : (echoName, Fn.cmdECHO) ∈ cmds) (p := cmdECHO e [w, t]) rfl] at hx
    unfold cmdECHO at hx
    obtain ⟨rfl, _⟩ := runs_ret hx
    rw [hp, if_neg (by decide)]
    simp
  · rw [executes_iff hw (by decide : (pingName, Fn.cmdPING) ∈ cmds) (p := cmdPING e [w, t]) rfl] at hx
    unfold cmdPING at hx
    obtain ⟨rfl, _⟩ := runs_ret hx
    rw [hp, if_neg (by decide)]
    simp

/-- The environment of a command: RESP, memory is not low, times of 64 bits. -/
def Fine (e : Env) : Prop := e.proto = .resp ∧ 0 < e.now ∧ IsI64 e.now ∧ e.lowmem = false

theorem done_words {a : Ask} (he : Fine e) (hw : Words a args) (hn : args.length ≤ 100000) (hl : ∀ t ∈ args, t.length ≤ longest)
    (hle : t0 ≤ e.now) (hdel : (∀ ks, a ≠ .del ks) ∨ t0 = e.now) (h0' : Agrees t0 s.dict m) : Done env e pw y t0 m a args s out s' := by
  obtain ⟨hp, h0, hnow, hlow⟩ := he
  have hll := longest_lt
  have num : ∀ {t : Bytes} {x : Int}, IntArg t x → IsNumber t x := fun hi => Or.inr hi
  cases hw with
  | ping hw => exact done_ping hp hw hle h0'
  | echo hw => exact done_echo hp hw (by have := hl _ (List.mem_cons_of_mem _ (List.mem_singleton.2 rfl)); omega) hle h0'
  | get hw => exact done_get hp hw hle h0'
  | mget hw hks => exact done_mget hp hw hks (by simp at hn; omega) hle h0'
  | exist hw hks => exact done_exist hp hw hks (by simp at hn; omega) hle h0'
  | touch hw hks => exact done_touch hp hw hks (by simp at hn; omega) hle h0'
  | ttl hw => exact done_ttl hp h0 hnow hw hle h0'
  | set hw hc hl' hws => exact done_set hp h0 hnow hlow hw hc hl' hws (hl _ (by simp)) hle h0'
  | setex hw ht hx => exact done_setex hp h0 hnow hlow hw ht hx (hl _ (by simp)) hle h0'
  | swap hw hg => exact done_swap hp h0 hnow hlow hw hg (hl _ (by simp)) hle h0'
  | del hw hks =>
    have := hdel.resolve_left (fun hc => hc _ rfl)
    subst this
    exact done_del hp hw hks (by simp at hn; omega) h0'
  | expire hw ht hx => exact done_expire hp h0 hnow hw ht hx hle h0'
  | join hw => exact done_join hp h0 hw (hl _ (by simp)) hle h0'
  | @incrby _ k _ _ hw ht =>
    have := done_add (k := k) (env := env) (pw := pw) (y := y) (s' := s') (out := out) hp h0 (decr := false) ⟨_, Or.inl ⟨rfl, hw⟩⟩ (num ht)
      (by simpa [result] using ht.2.2) hle h0'
    simpa [result] using this
  | @decrby _ k _ _ hw ht hd =>
    have := done_add (k := k) (env := env) (pw := pw) (y := y) (s' := s') (out := out) hp h0 (decr := true) ⟨_, Or.inl ⟨rfl, hw⟩⟩ (num ht)
      (by simpa [result] using hd) hle h0'
    simpa [result] using this
  | incr hw =>
    exact done_add (env := env) (pw := pw) (y := y) (s' := s') (out := out) hp h0 (decr := false) (δ := 1) ⟨_, Or.inr ⟨rfl, hw, rfl⟩⟩
      (isNumber_iff.2 (by decide)) (by unfold result IsI64; simp) hle h0'
  | decr hw =>
    exact done_add (env := env) (pw := pw) (y := y) (s' := s') (out := out) hp h0 (decr := true) (δ := 1) ⟨_, Or.inr ⟨rfl, hw, rfl⟩⟩
      (isNumber_iff.2 (by decide)) (by unfold result IsI64; simp) hle h0'

end

/-- The program of a command: its result, after which the connection may go on. -/
theorem words_program {a : Ask} {args : List Bytes} (hw : Words a args) (e : Env) (pw : Bytes) (y : Sys) :
    ∃ p : Prog (List W), evcommand e pw (admin y) args ⟨true⟩ = p.map (·, ⟨true⟩) ∧ (evcommand e pw (admin y) args ⟨true⟩).ok ∧ args ≠ [] := by
  have plainFn : ∀ {w low : Bytes} {fn : Fn} {as : List Bytes} (p : Prog (List W)), Spells w low → (low, fn) ∈ cmds →
      call e pw (admin y) fn (w :: as) ⟨true⟩ = p.map (·, ⟨true⟩) → call e pw noOther fn (w :: as) ⟨true⟩ = p.map (·, ⟨true⟩) →
      ∃ p : Prog (List W), evcommand e pw (admin y) (w :: as) ⟨true⟩ = p.map (·, ⟨true⟩) ∧
        (evcommand e pw (admin y) (w :: as) ⟨true⟩).ok ∧ w :: as ≠ [] := by
    intro w low fn as p hs hm h1 h2
    rw [evcommand_known hs hm, h1]
    refine ⟨p, rfl, ?_, by simp⟩
    rw [← h2, ← evcommand_known hs hm]
    exact evcommand_ok e pw noOther (fun _ _ _ => trivial) _ _
  have adminFn : ∀ {w low : Bytes} {fn : Fn} {as : List Bytes} (out : List W), Spells w low → (low, fn) ∈ cmds →
      call e pw (admin y) fn (w :: as) ⟨true⟩ = (Prog.ret out).map (·, ⟨true⟩) →
      ∃ p : Prog (List W), evcommand e pw (admin y) (w :: as) ⟨true⟩ = p.map (·, ⟨true⟩) ∧
        (evcommand e pw (admin y) (w :: as) ⟨true⟩).ok ∧ w :: as ≠ [] := by
    intro w low fn as out hs hm h1
    rw [evcommand_known hs hm, h1]
    exact ⟨.ret out, rfl, trivial, by simp⟩
  cases hw with
  | ping hw => exact adminFn _ hw (by decide : (pingName, Fn.cmdPING) ∈ cmds) rfl
  | echo hw =>
    rcases hw with hw | hw
    · exact adminFn _ hw (by decide : (echoName, Fn.cmdECHO) ∈ cmds) rfl
    · exact adminFn _ hw (by decide : (pingName, Fn.cmdPING) ∈ cmds) rfl
  | get hw => exact plainFn _ hw (by decide : (_, Fn.cmdGET) ∈ cmds) rfl rfl
  | mget hw _ => exact plainFn _ hw (by decide : (_, Fn.cmdMGET) ∈ cmds) rfl rfl
  | exist hw _ => exact plainFn _ hw (by decide : (_, Fn.cmdEXISTS) ∈ cmds) rfl rfl
  | touch hw _ => exact plainFn _ hw (by decide : (_, Fn.cmdTOUCH) ∈ cmds) rfl rfl
  | @ttl ms _ _ hw => cases ms <;> exact plainFn _ hw (by decide : (_, Fn.cmdTTL) ∈ cmds) rfl rfl
  | set hw _ _ _ => exact plainFn _ hw (by decide : (_, Fn.cmdSET) ∈ cmds) rfl rfl
  | setex hw _ _ => exact plainFn _ hw (by decide : (_, Fn.cmdSETEX) ∈ cmds) rfl rfl
  | swap hw _ => exact plainFn _ hw (by decide : (_, Fn.cmdSET) ∈ cmds) rfl rfl
  | del hw _ => exact plainFn _ hw (by decide : (_, Fn.cmdDEL) ∈ cmds) rfl rfl
  | expire hw _ _ => exact plainFn _ hw (by decide : (_, Fn.cmdEXPIRE) ∈ cmds) rfl rfl
  | @join front _ _ _ hw =>
    cases front
    · exact plainFn _ hw (by decide : (_, Fn.cmdAPPEND) ∈ cmds) rfl rfl
    · exact plainFn _ hw (by decide : (_, Fn.cmdPREPEND) ∈ cmds) rfl rfl
  | incrby hw _ => exact plainFn _ hw (by decide : (_, Fn.cmdINCRBY) ∈ cmds) rfl rfl
  | decrby hw _ _ => exact plainFn _ hw (by decide : (_, Fn.cmdDECRBY) ∈ cmds) rfl rfl
  | incr hw => exact plainFn _ hw (by decide : (_, Fn.cmdINCR) ∈ cmds) rfl rfl
  | decr hw => exact plainFn _ hw (by decide : (_, Fn.cmdDECR) ∈ cmds) rfl rfl

/-! ### The connection -/

theorem encArgs_length {as : List Bytes} {w : Bytes} (h : EncArgs as w) : ∀ t ∈ as, t.length ≤ longest := by
  induction h with
  | nil => simp
  | cons h1 _ ih =>
    obtain ⟨_, _, h2, _⟩ := h1
    intro t ht
    rcases List.mem_cons.1 ht with rfl | ht
    · exact h2
    · exact ih t ht

theorem enc_length {as : List Bytes} {w : Bytes} (h : Enc as w) : as.length ≤ 100000 ∧ ∀ t ∈ as, t.length ≤ longest := by
  obtain ⟨_, _, _, h1, h2, _⟩ := h
  exact ⟨h1, encArgs_length h2⟩

/-- The client reads exactly these replies, whatever was sent before and whatever follows. -/
def Reads (bytes : Bytes) (rs : List Reply) : Prop := ∃ fuel, ∀ rest f, fuel ≤ f → decodeN f rs.length (bytes ++ rest) = some (rs, rest)

theorem reads_nil : Reads [] [] := ⟨0, fun rest f _ => by simp [decodeN]⟩

theorem reads_cons {out : List W} {r : Reply} {rs : List Reply} {bytes : Bytes} (h : Answers out r) (h' : Reads bytes rs) :
    ∃ b, (∀ buf, renderAll out buf = buf ++ b) ∧ Reads (b ++ bytes) (r :: rs) := by
  obtain ⟨b, f1, h1, h2⟩ := h
  obtain ⟨f2, h3⟩ := h'
  refine ⟨b, h1, f1 + f2 + 1, fun rest f hf => ?_⟩
  obtain ⟨g, rfl⟩ : ∃ g, f = g + 1 := ⟨f - 1, by omega⟩
  rw [List.length_cons, decodeN, List.append_assoc, h2 _ _ (by omega)]
  simp only [Option.bind_some]
  rw [h3 _ _ (by omega)]
  rfl

/-- The times of the first commands. -/
def timed (clock : Nat → Env) : Nat → List Ask → List (Int × Ask)
  | _, [] => []
  | i, a :: as => ((clock i).now, a) :: timed clock (i + 1) as

theorem exec_map {α β : Type} {f : α → β} (p : Prog α) {c : Ctx} {n : Nat} {mems : Nat → Nat → Mem} {now : Int} {i : Nat} {shs shs' : Shards} {b : β}
    (h : (p.map f).exec c n mems now i shs = .val (b, shs')) : ∃ a, b = f a := by
  induction p generalizing i shs with
  | ret a =>
    simp only [Prog.map, Prog.exec, Out.val.injEq, Prod.mk.injEq] at h
    exact ⟨a, h.1.symm⟩
  | call op k ih =>
    simp only [Prog.map, Prog.exec] at h
    obtain ⟨r, _, h2⟩ := out_bind_val h
    exact ih _ h2

theorem run_all {c : Ctx} {n : Nat} {pw : Bytes} {y : Sys} {clock : Nat → Env} (hv : c.Valid) (hn : 0 < n)
    (hclock : ∀ i, Fine (clock i)) (hmono : ∀ i, (clock i).now ≤ (clock (i + 1)).now)
    {as : List Ask} {cs : List (List Bytes)} (hw : List.Forall₂ Words as cs) (hlen : ∀ x ∈ cs, x.length ≤ 100000 ∧ ∀ t ∈ x, t.length ≤ longest)
    (shs : Shards) (h : AllInv c n shs) (sent : Bytes) (i : Nat) :
    ((∃ shs', (runAll (execResp (exec c n pw y clock)) cs ⟨.val shs, ⟨true⟩, sent, i⟩).1.cache = .val shs' ∧ AllInv c n shs' ∧
      (NoWrap n shs' → NoWrap n shs ∧ ∀ now0 s m, now0 ≤ (clock i).now → R c n now0 shs s → Agrees (clock i).now s.dict m →
        (runAll (execResp (exec c n pw y clock)) cs ⟨.val shs, ⟨true⟩, sent, i⟩).2 = false ∧
        ∃ rs m' bytes, Conversation (timed clock i as) m rs m' ∧ Reads bytes rs ∧
          (runAll (execResp (exec c n pw y clock)) cs ⟨.val shs, ⟨true⟩, sent, i⟩).1.sent = sent ++ bytes)) ∨
    (runAll (execResp (exec c n pw y clock)) cs ⟨.val shs, ⟨true⟩, sent, i⟩).1.cache = .abort true) := by
  induction hw generalizing shs sent i with
  | nil =>
    left
    refine ⟨shs, rfl, h, fun hnw => ⟨hnw, fun now0 s m _ _ _ => ⟨rfl, [], m, [], .nil m, reads_nil, by simp [runAll]⟩⟩⟩
  | @cons a args as cs hw _ ih =>
    obtain ⟨p, hp1, hp2, hp3⟩ := words_program hw (clock i) pw y
    obtain ⟨hr, h0, hi, hlow⟩ := hclock i
    have hstep : ∀ st, execResp (exec c n pw y clock) args st = exec c n pw y clock args st := fun st => by
      unfold execResp; rw [if_neg hp3]
    have hex : ∀ o, (evcommand (clock i) pw (admin y) args ⟨true⟩).exec c n (fun _ _ => ⟨true, true, true⟩) (clock i).now 0 shs = o →
        exec c n pw y clock args ⟨.val shs, ⟨true⟩, sent, i⟩ =
          match o with
          | .val ((out, auth), shs') => (⟨.val shs', auth, renderAll out sent, i + 1⟩, decide (W.close ∈ out))
          | bad => (⟨bad.bind fun r => .val r.2, ⟨true⟩, sent, i⟩, true) := by
      intro o ho
      unfold exec
      simp only [Out.bind, ho]
      cases o <;> rfl
    rcases prog_refines hv hn (fun _ _ => ⟨true, true, true⟩) false (clock i).now h0 hi (fun _ _ _ => rfl) (fun _ _ => rfl) (fun _ _ => rfl) _ hp2 0 shs h with
      ⟨⟨out, auth⟩, shs1, a1, a2, a3⟩ | a1
    · have he := hex _ a1
      simp only [] at he
      obtain ⟨out', ho⟩ := exec_map p (hp1 ▸ a1)
      simp only [Prod.mk.injEq] at ho
      obtain ⟨rfl, rfl⟩ := ho
      have hdone : NoWrap n shs1 → NoWrap n shs ∧ ∀ now0 s m, now0 ≤ (clock i).now → R c n now0 shs s → Agrees (clock i).now s.dict m →
          ∃ s1 r m', R c n (clock i).now shs1 s1 ∧ Serves (clock i).now m a r m' ∧ Sends out r ∧ Agrees (clock i).now s1.dict m' := by
        intro hnw
        obtain ⟨b1, b2⟩ := a3 hnw
        refine ⟨b1, fun now0 s m hle hR hag => ?_⟩
        obtain ⟨s1, b3, b4⟩ := b2 now0 s hle hR
        obtain ⟨r, m', b5, b6, b7, _⟩ := done_words (hclock i) hw (hlen args (by simp)).1 (hlen args (by simp)).2 (le_refl _) (Or.inr rfl) hag ⟨_, b4⟩
        exact ⟨s1, r, m', b3, b5, b6, b7⟩
      rw [runAll, hstep, he]
      by_cases hcl : W.close ∈ out
      · left
        rw [if_pos (by simpa using hcl)]
        refine ⟨shs1, rfl, a2, fun hnw => ?_⟩
        obtain ⟨b1, b2⟩ := hdone hnw
        refine ⟨b1, fun now0 s m hle hR hag => ?_⟩
        obtain ⟨s1, r, m', _, _, b6, _⟩ := b2 now0 s m hle hR hag
        exact absurd hcl b6.2
      · rw [if_neg (by simpa using hcl)]
        rcases ih (fun x hx => hlen x (by simp [hx])) shs1 a2 (renderAll out sent) (i + 1) with ⟨shs', c1, c2, c3⟩ | c1
        · left
          refine ⟨shs', c1, c2, fun hnw => ?_⟩
          obtain ⟨c4, c5⟩ := c3 hnw
          obtain ⟨b1, b2⟩ := hdone c4
          refine ⟨b1, fun now0 s m hle hR hag => ?_⟩
          obtain ⟨s1, r, m', b3, b5, b6, b7⟩ := b2 now0 s m hle hR hag
          obtain ⟨c6, rs, m2, bytes, c7, c8, c9⟩ := c5 _ s1 m' (hmono i) b3 (b7.later (hmono i))
          obtain ⟨b, d1, d2⟩ := reads_cons b6.1 c8
          refine ⟨c6, r :: rs, m2, b ++ bytes, .cons b5 c7, d2, ?_⟩
          rw [c9, d1, List.append_assoc]
        · exact Or.inr c1
    · right
      rw [runAll, hstep, hex _ a1]
      rfl

/-- What the user thinks is there, given the dictionary. -/
def ofDict (d : Spec.Dict) : Store := fun k => (d k).map kept

/-- **C98.**  A new RESP connection, to a cache in any reachable state; any sequence of commands, any way of writing them, any division of the bytes into chunks, any
(not decreasing) times.  Exactly the commands that have arrived completely are answered, in order, each by what the server that a user has in mind
answers; the client reads exactly these replies and nothing else; and the connection stays open.  (Unless a distance counter of the hash table has
wrapped, C01; memory is not low, and no other client is active.) -/
theorem pipeline_served {c : Ctx} (hv : c.Valid) {n : Nat} (hn : 0 < n) {shs : Shards} (h : AllInv c n shs) {now0 : Int} {s : Spec.State}
    (hR : R c n now0 shs s) (hs : ∀ k it, s.dict k = some it → it.value.length ≤ longest ∧ it.expires < 2 ^ 63)
    {pw : Bytes} {y : Sys} {clock : Nat → Env} (hclock : ∀ i, Fine (clock i)) (hmono : ∀ i, (clock i).now ≤ (clock (i + 1)).now)
    (h0 : now0 ≤ (clock 0).now) {others : Proto → Bytes → PR (List Bytes × Nat)} {onErr : Srv → Srv}
    {as : List Ask} {cs : List (List Bytes)} {ws : List Bytes} (hw : List.Forall₂ Words as cs) (he : List.Forall₂ Enc cs ws)
    {chunks : List Bytes} (hc : chunks.flatten <+: ws.flatten) :
    ∃ conn k tail, serve c n pw y clock others onErr shs chunks = .got conn ∧ Received ws chunks.flatten k tail ∧
      (Wrapped n conn.st.cache ∨
        conn.closed = false ∧ conn.packet = tail ∧ (∃ shs', conn.st.cache = .val shs') ∧
        ∃ rs m', rs.length = k ∧ Conversation (timed clock 0 (as.take k)) (ofDict s.dict) rs m' ∧ Reads conn.st.sent rs) := by
  obtain ⟨conn, k, tail, h1, h2, h3, h4⟩ := resp_chunking (exec c n pw y clock) onErr he chunks hc ⟨.val shs, ⟨true⟩, [], 0⟩ others
  refine ⟨conn, k, tail, h1, h2, ?_⟩
  have hlen : ∀ x ∈ cs, x.length ≤ 100000 ∧ ∀ t ∈ x, t.length ≤ longest := by
    intro x hx
    have : ∀ {cs : List (List Bytes)} {ws : List Bytes}, List.Forall₂ Enc cs ws → x ∈ cs → ∃ w, Enc x w := by
      intro cs ws hf
      induction hf with
      | nil => intro hx; simp at hx
      | cons h1 _ ih =>
        intro hx
        rcases List.mem_cons.1 hx with rfl | hx
        · exact ⟨_, h1⟩
        · exact ih hx
    obtain ⟨w, hw⟩ := this he hx
    exact enc_length hw
  have hag : Agrees (clock 0).now s.dict (ofDict s.dict) := by
    refine ⟨fun _ => rfl, fun k x hx => ?_⟩
    unfold Store.see ofDict at hx
    rw [Option.filter_eq_some_iff, Option.map_eq_some_iff] at hx
    obtain ⟨⟨it, h5, rfl⟩, _⟩ := hx
    refine ⟨(hs k it h5).1, fun d hd => ?_⟩
    unfold kept at hd
    simp only [] at hd
    split at hd
    · cases hd
    · cases hd
      exact (hs k it h5).2
  have key := run_all (pw := pw) (y := y) hv hn hclock hmono (List.forall₂_take k hw) (fun x hx => hlen x (List.mem_of_mem_take hx)) shs h [] 0
  rw [Prod.ext_iff] at h3
  simp only [] at h3
  rw [← h3.1, ← h3.2] at key
  have hk : (as.take k).length = k := by
    rw [List.length_take, hw.length_eq, he.length_eq]
    have := h2.2.1
    omega
  rcases key with ⟨shs', k1, _, k3⟩ | k1
  · rw [k1]
    by_cases hnw : NoWrap n shs'
    · right
      obtain ⟨k5, rs, m', bytes, k6, k7, k8⟩ := (k3 hnw).2 now0 s _ h0 hR hag
      rw [List.nil_append] at k8
      refine ⟨k5, h4 k5, ⟨shs', rfl⟩, rs, m', ?_, k6, k8 ▸ k7⟩
      have hlenc : ∀ {i : Nat} {as : List Ask} {m m' : Store} {rs : List Reply}, Conversation (timed clock i as) m rs m' → rs.length = as.length := by
        intro i as
        induction as generalizing i with
        | nil => intro m m' rs hh; cases hh; rfl
        | cons a as ih => intro m m' rs hh; cases hh with | cons _ h' => simp [ih h']
      rw [hlenc k6, hk]
    · exact Or.inl hnw
  · left
    rw [k1]
    trivial

end Verif.Wire
