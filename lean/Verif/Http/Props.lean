import Mathlib.Tactic.Common
import Verif.Http.Model
import Verif.Cmd.SetOpt

/-!
C44: HTTP requests; C40 for HTTP.
-/

namespace Verif.Http

open Verif.Num Verif.Cmd

/-! ### Specification -/

/-- A part of the query: `name` or `name=value`. -/
structure Param where
  name : Bytes
  value : Option Bytes

/-- The name has no `=`, and neither has `&`, blanks or ends of lines. -/
def Param.Ok (p : Param) : Prop :=
  p.name ≠ [] ∧ (∀ b ∈ p.name, b ≠ 61 ∧ b ≠ 38 ∧ b ≠ 32 ∧ b ≠ 10) ∧ ∀ v, p.value = some v → ∀ b ∈ v, b ≠ 38 ∧ b ≠ 32 ∧ b ≠ 10

def Param.text (p : Param) : Bytes :=
  match p.value with
  | none => p.name
  | some v => p.name ++ 61 :: v

/-- Parameters separated by `&`. -/
def queryText : List Param → Bytes
  | [] => []
  | [p] => p.text
  | p :: ps => p.text ++ 38 :: queryText ps

/-- A header field; any number of blanks between colon and value. -/
structure Field where
  name : Bytes
  blanks : Nat
  value : Bytes

def Field.Ok (f : Field) : Prop :=
  f.name ≠ [] ∧ (∀ b ∈ f.name, b ≠ 58 ∧ b ≠ 13 ∧ b ≠ 10) ∧ (∀ b ∈ f.value, b ≠ 13 ∧ b ≠ 10) ∧ f.value.head? ≠ some 32

def Field.text (f : Field) : Bytes := f.name ++ [58] ++ List.replicate f.blanks 32 ++ f.value ++ [13, 10]

inductive Method where
  | get | put | delete
deriving DecidableEq, Repr

def Method.text : Method → Bytes
  | .get => [71, 69, 84]
  | .put => [80, 85, 84]
  | .delete => [68, 69, 76, 69, 84, 69]

/-- A request; `minor` is the digit of the version 1.x. -/
structure Request where
  method : Method
  key : Bytes
  params : List Param
  minor : UInt8
  fields : List Field
  body : Bytes

/-- A key allowed in a path: 1 to 250 printable ASCII characters other than `% + @ $ ? =` and blank. -/
def Key (k : Bytes) : Prop :=
  1 ≤ k.length ∧ k.length ≤ 250 ∧ ∀ b ∈ k, 32 < b.toNat ∧ b.toNat < 127 ∧ b ∉ ([37, 43, 64, 36, 63, 61] : Bytes)

def contentLength : Bytes := [99, 111, 110, 116, 101, 110, 116, 45, 108, 101, 110, 103, 116, 104]
def authorization : Bytes := [97, 117, 116, 104, 111, 114, 105, 122, 97, 116, 105, 111, 110]
def bearer : Bytes := [66, 101, 97, 114, 101, 114, 32]

/-- The request is well formed: at least one header field, and the length of the body is announced unless it is empty. -/
def Request.Ok (r : Request) : Prop :=
  Key r.key ∧ (∀ p ∈ r.params, p.Ok) ∧ 48 ≤ r.minor.toNat ∧ r.minor.toNat ≤ 57 ∧ r.fields ≠ [] ∧ (∀ f ∈ r.fields, f.Ok) ∧
    r.body.length ≤ 536870912 ∧
    (∀ f ∈ r.fields, Spells f.name contentLength → NatArg f.value r.body.length) ∧
    ((∃ f ∈ r.fields, Spells f.name contentLength) ∨ r.body = [])

/-- The request on the wire. -/
def Request.wire (r : Request) : Bytes :=
  r.method.text ++ [32, 47] ++ r.key ++ (if r.params = [] then [] else 63 :: queryText r.params) ++
    [32, 72, 84, 84, 80, 47, 49, 46, r.minor, 13, 10] ++ (r.fields.map Field.text).flatten ++ [13, 10] ++ r.body

/-- The value of the last parameter with one of the names. -/
def Request.param (r : Request) (names : List Bytes) : Option Bytes :=
  ((r.params.filter fun p => p.name ∈ names).getLast?.map (·.value)).join

/-- There is a parameter with the name. -/
def Request.has (r : Request) (name : Bytes) : Bool := r.params.any fun p => p.name = name

/-- An option with its value. -/
def opt (name : Bytes) : Option Bytes → List Bytes
  | none => []
  | some v => [name, v]

/-- The command that the request stands for. -/
def Request.command (r : Request) : List Bytes :=
  match r.method with
  | .get => [[103, 101, 116], r.key]
  | .delete => [[100, 101, 108], r.key]
  | .put => [[115, 101, 116], r.key, r.body] ++ opt [99, 97, 115] (r.param [[99, 97, 115]]) ++
      opt [101, 120] (r.param [[101, 120], [116, 116, 108]]) ++ opt [102, 108, 97, 103, 115] (r.param [[102, 108, 97, 103, 115]]) ++
      (if r.has [120, 120] then [[120, 120]] else []) ++ (if r.has [110, 120] then [[110, 120]] else [])

/-- Password given by the parameter `auth`, if not empty. -/
def Request.authParam (r : Request) : Bytes := (r.param [[97, 117, 116, 104]]).getD []

/-- Value of the last field `Authorization`, empty if there is none. -/
noncomputable def Request.authField (r : Request) : Bytes := by
  classical exact ((r.fields.filter fun f => Spells f.name authorization).getLast?.map (·.value)).getD []

/-- The request gives the password `pw`: by the parameter, or if that is empty by the field. -/
def Request.Gives (r : Request) (pw : Bytes) : Prop :=
  if r.authParam ≠ [] then r.authParam = pw else r.authField = bearer ++ pw

/-- The request does not try to give any password. -/
def Request.Anonymous (r : Request) : Prop := r.authParam = [] ∧ r.authField = []

/-! ### Parts -/

theorem word_exact (w s : Bytes) (h : ∀ b ∈ w, b ≠ 32 ∧ b ≠ 10) : word (w ++ 32 :: s) = some (w, s) := by
  induction w with
  | nil => simp [word]
  | cons b w ih =>
    have hb := h b (by simp)
    rw [List.cons_append, word, if_neg hb.1, if_neg hb.2, ih (fun x hx => h x (by simp [hx]))]
    rfl

theorem upTo_exact (c : UInt8) (w s : Bytes) (h : ∀ b ∈ w, b ≠ c) : upTo c (w ++ c :: s) = some (w, s) := by
  induction w with
  | nil => simp [upTo]
  | cons b w ih =>
    rw [List.cons_append, upTo, if_neg (h b (by simp)), ih (fun x hx => h x (by simp [hx]))]
    rfl

theorem query_name (n rest key : Bytes) (q : Query) (h : ∀ b ∈ n, b ≠ 61 ∧ b ≠ 38) (hr : rest ≠ []) :
    query (n ++ rest) key none q = query rest (key ++ n) none q := by
  induction n generalizing key with
  | nil => simp
  | cons b n ih =>
    have hb := h b (by simp)
    rw [List.cons_append, query, if_neg hb.1, if_neg (by simp [hr]), if_neg hb.2, ih _ (fun x hx => h x (by simp [hx]))]
    simp

theorem query_val (v rest key w : Bytes) (q : Query) (h : ∀ b ∈ v, b ≠ 38) :
    query (v ++ rest) key (some w) q = query rest key (some (w ++ v)) q := by
  induction v generalizing w with
  | nil => simp
  | cons b v ih =>
    rw [List.cons_append, query, if_neg (h b (by simp)), ih _ (fun x hx => h x (by simp [hx]))]
    simp

theorem queryText_ne_nil {ps : List Param} (h : ∀ p ∈ ps, p.Ok) (hne : ps ≠ []) : queryText ps ≠ [] := by
  cases ps with
  | nil => exact absurd rfl hne
  | cons p ps =>
    have : p.text ≠ [] := by
      have := (h p (by simp)).1
      unfold Param.text
      split
      · exact this
      · simp
    cases ps with
    | nil => exact this
    | cons p' ps => simp [queryText, this]

theorem query_params (ps : List Param) (h : ∀ p ∈ ps, p.Ok) (q : Query) :
    query (queryText ps) [] none q = ps.foldl (fun q p => pair q p.name p.value) q := by
  induction ps generalizing q with
  | nil => rfl
  | cons p ps ih =>
    obtain ⟨hne, hn, hv⟩ := h p (by simp)
    have hps : ∀ p ∈ ps, p.Ok := fun x hx => h x (by simp [hx])
    have hn2 : ∀ b ∈ p.name, b ≠ 61 ∧ b ≠ 38 := fun b hb => ⟨(hn b hb).1, (hn b hb).2.1⟩
    rw [List.foldl_cons]
    by_cases hnil : ps = []
    · subst hnil
      simp only [queryText, List.foldl_nil, Param.text]
      cases hval : p.value with
      | none =>
        simp only []
        obtain ⟨n, b, hnb⟩ : ∃ n b, p.name = n ++ [b] := ⟨_, _, (List.dropLast_append_getLast hne).symm⟩
        rw [hnb] at hn2 ⊢
        rw [query_name n [b] [] q (fun x hx => hn2 x (by simp [hx])) (by simp), query, if_neg (hn2 b (by simp)).1, if_pos rfl]
        simp
      | some v =>
        simp only []
        rw [query_name p.name _ [] q hn2 (by simp), query, if_pos rfl]
        have := query_val v [] p.name [] q (fun b hb => (hv v hval b hb).1)
        simp only [List.append_nil, List.nil_append] at this ⊢
        rw [this, query]
    · have htext : queryText (p :: ps) = p.text ++ 38 :: queryText ps := by
        cases ps with
        | nil => exact absurd rfl hnil
        | cons _ _ => rfl
      rw [htext, ← ih hps]
      have hqn := queryText_ne_nil hps hnil
      unfold Param.text
      cases hval : p.value with
      | none =>
        simp only []
        rw [query_name p.name _ [] q hn2 (by simp), query, if_neg (by decide), if_neg hqn, if_pos rfl]
        simp
      | some v =>
        simp only []
        rw [List.append_assoc, query_name p.name _ [] q hn2 (by simp), List.cons_append, query, if_pos rfl,
          query_val v _ _ _ q (fun b hb => (hv v hval b hb).1), query, if_pos rfl]
        simp

theorem params_query (r : Request) : r.params.foldl (fun q p => pair q p.name p.value) ⟨none, none, none, none, false, false⟩ =
    ⟨r.param [[101, 120], [116, 116, 108]], r.param [[102, 108, 97, 103, 115]], r.param [[99, 97, 115]], r.param [[97, 117, 116, 104]],
      r.has [120, 120], r.has [110, 120]⟩ := by
  unfold Request.param Request.has
  generalize r.params = ps
  induction ps using List.reverseRecOn with
  | nil => rfl
  | append_singleton ps p ih =>
    rw [List.foldl_append, ih]
    simp only [List.foldl_cons, List.foldl_nil, List.filter_append, List.any_append]
    unfold pair
    by_cases h1 : p.name = [102, 108, 97, 103, 115]
    · simp [h1]
    by_cases h2 : p.name = [101, 120] ∨ p.name = [116, 116, 108]
    · rcases h2 with h2 | h2 <;> simp [h2]
    by_cases h3 : p.name = [99, 97, 115]
    · simp [h3]
    by_cases h4 : p.name = [120, 120]
    · simp [h4]
    by_cases h5 : p.name = [110, 120]
    · simp [h5]
    by_cases h6 : p.name = [97, 117, 116, 104]
    · simp [h6]
    simp [h1, h2, h3, h4, h5, h6]

/-! ### Headers -/

theorem dropWhile_blanks (n : Nat) (v : Bytes) (h : v.head? ≠ some 32) : (List.replicate n 32 ++ v).dropWhile (· = 32) = v := by
  induction n with
  | zero =>
    cases v with
    | nil => rfl
    | cons b v =>
      have : b ≠ 32 := by simpa using h
      simp [this]
  | succ n ih => rw [List.replicate_succ, List.cons_append, List.dropWhile_cons_of_pos (by simp)]; exact ih

theorem headers_exact (fs : List Field) (hne : fs ≠ []) (hok : ∀ f ∈ fs, f.Ok) (fuel : Nat) (hf : fs.length ≤ fuel) (rest : Bytes) (h h' : Hdrs)
    (hfold : fs.foldlM (fun h f => header h f.name f.value) h = some h') :
    headers fuel ((fs.map Field.text).flatten ++ [13, 10] ++ rest) h = .inr (h', rest) := by
  induction fs generalizing fuel h with
  | nil => exact absurd rfl hne
  | cons f fs ih =>
    obtain ⟨hn, hn2, hv, hv2⟩ := hok f (by simp)
    cases fuel with
    | zero => simp at hf
    | succ fuel =>
      have htext : ((f :: fs).map Field.text).flatten ++ [13, 10] ++ rest =
          f.name ++ 58 :: (List.replicate f.blanks 32 ++ (f.value ++ 13 :: 10 :: ((fs.map Field.text).flatten ++ [13, 10] ++ rest))) := by
        simp [Field.text]
      have hhead : (f.value ++ 13 :: 10 :: ((fs.map Field.text).flatten ++ [13, 10] ++ rest)).head? ≠ some 32 := by
        cases hval : f.value with
        | nil => simp
        | cons b v => rw [hval] at hv2; simpa using hv2
      have hraw : f.value ++ 13 :: 10 :: ((fs.map Field.text).flatten ++ [13, 10] ++ rest) =
          (f.value ++ [13]) ++ 10 :: ((fs.map Field.text).flatten ++ [13, 10] ++ rest) := by simp
      rw [htext, headers, upTo_exact 58 f.name _ (fun b hb => (hn2 b hb).1)]
      simp only []
      rw [dropWhile_blanks _ _ hhead, hraw, upTo_exact 10 _ _ (by
        intro b hb
        rcases List.mem_append.1 hb with hb | hb
        · exact (hv b hb).2
        · simp at hb; rw [hb]; decide)]
      simp only []
      rw [if_neg (by simp), List.dropLast_concat]
      simp only [List.foldlM_cons, Option.bind_eq_bind, Option.bind_eq_some_iff] at hfold
      obtain ⟨h1, hh1, hrest⟩ := hfold
      rw [hh1]
      simp only []
      by_cases hnil : fs = []
      · subst hnil
        simp only [List.foldlM_nil, Option.pure_def, Option.some.injEq] at hrest
        subst hrest
        simp
      · obtain ⟨b, t, hbt, hb13⟩ : ∃ b t, (fs.map Field.text).flatten ++ [13, 10] ++ rest = b :: t ∧ b ≠ 13 := by
          cases fs with
          | nil => exact absurd rfl hnil
          | cons f' fs =>
            obtain ⟨hn', hn2', _⟩ := hok f' (by simp)
            cases hname : f'.name with
            | nil => exact absurd hname hn'
            | cons b n =>
              refine ⟨b, _, by simp [Field.text, hname]; rfl, ?_⟩
              exact (hn2' b (by rw [hname]; simp)).2.1
        have := ih hnil (fun x hx => hok x (by simp [hx])) fuel (by simpa using hf) h1 hrest
        rw [hbt] at this ⊢
        split
        · rename_i heq; simp at heq; exact absurd heq.1 hb13
        · rename_i heq; simp at heq; exact absurd heq.1 hb13
        · rename_i heq; simp at heq
        · exact this

theorem header_fields (r : Request) (h : r.Ok) : ∃ html, r.fields.foldlM (fun h f => header h f.name f.value) ⟨0, false, []⟩ =
    some ⟨r.body.length, html, r.authField⟩ := by
  classical
  obtain ⟨_, _, _, _, _, _, hb, hcl, hcl2⟩ := h
  have key : ∀ fs : List Field, (∀ f ∈ fs, Spells f.name contentLength → NatArg f.value r.body.length) →
      ∃ html, fs.foldlM (fun h f => header h f.name f.value) ⟨0, false, []⟩ =
        some ⟨if ∃ f ∈ fs, Spells f.name contentLength then r.body.length else 0, html,
          ((fs.filter fun f => decide (Spells f.name authorization)).getLast?.map (·.value)).getD []⟩ := by
    intro fs
    induction fs using List.reverseRecOn with
    | nil => intro _; exact ⟨false, by simp⟩
    | append_singleton fs f ih =>
      intro hfs
      obtain ⟨html, ih⟩ := ih (fun x hx => hfs x (by simp [hx]))
      rw [List.foldlM_append, ih]
      simp only [List.foldlM_cons, List.foldlM_nil, Option.bind_eq_bind, Option.bind_some, Option.pure_def]
      unfold header
      by_cases h1 : Spells f.name contentLength
      · have hn := hfs f (by simp) h1
        rw [if_pos (by rw [argeq_iff]; exact (spells_iff _ _ (by decide)).1 h1), hn.parse (by omega)]
        simp only []
        rw [if_neg (by unfold Resp.maxArgSz; omega)]
        refine ⟨html, ?_⟩
        have hna : ¬ Spells f.name authorization := by
          rw [spells_iff _ _ (by decide), (spells_iff _ _ (by decide)).1 h1]; decide
        rw [if_pos ⟨f, by simp, h1⟩, List.filter_append]
        simp [hna]
      · have hbl : (∃ f' ∈ fs ++ [f], Spells f'.name contentLength) ↔ ∃ f' ∈ fs, Spells f'.name contentLength := by
          constructor
          · rintro ⟨f', hf', hs⟩
            rcases List.mem_append.1 hf' with hf' | hf'
            · exact ⟨f', hf', hs⟩
            · simp at hf'; rw [hf'] at hs; exact absurd hs h1
          · rintro ⟨f', hf', hs⟩; exact ⟨f', by simp [hf'], hs⟩
        have h1' : argeq f.name [99, 111, 110, 116, 101, 110, 116, 45, 108, 101, 110, 103, 116, 104] = false := by
          rw [Bool.eq_false_iff, ne_eq, argeq_iff]
          exact fun hc => h1 ((spells_iff _ _ (by decide)).2 hc)
        simp only [h1', Bool.false_eq_true, if_false, hbl]
        rw [List.filter_append]
        by_cases h2 : Spells f.name authorization
        · have e2 : f.name.map lower = authorization := (spells_iff _ _ (by decide)).1 h2
          have a1 : argeq f.name [99, 111, 110, 110, 101, 99, 116, 105, 111, 110] = false := by
            rw [Bool.eq_false_iff, ne_eq, argeq_iff, e2]; decide
          have a2 : argeq f.name [97, 99, 99, 101, 112, 116] = false := by
            rw [Bool.eq_false_iff, ne_eq, argeq_iff, e2]; decide
          have a3 : argeq f.name [97, 117, 116, 104, 111, 114, 105, 122, 97, 116, 105, 111, 110] = true := by
            rw [argeq_iff, e2]; decide
          simp only [a1, a2, a3, Bool.false_eq_true, if_false, if_true]
          refine ⟨html, ?_⟩
          simp [h2]
        · have a3 : argeq f.name [97, 117, 116, 104, 111, 114, 105, 122, 97, 116, 105, 111, 110] = false := by
            rw [Bool.eq_false_iff, ne_eq, argeq_iff]
            exact fun hc => h2 ((spells_iff _ _ (by decide)).2 hc)
          have hf1 : (List.filter (fun f => decide (Spells f.name authorization)) [f]) = [] := by simp [h2]
          rw [hf1, List.append_nil]
          simp only [a3, Bool.false_eq_true, if_false]
          split
          · exact ⟨html, rfl⟩
          · split
            · split
              · exact ⟨true, rfl⟩
              · exact ⟨html, rfl⟩
            · exact ⟨html, rfl⟩
  obtain ⟨html, hk⟩ := key r.fields hcl
  refine ⟨html, ?_⟩
  rw [hk]
  congr 2
  rcases hcl2 with hex | hnil
  · rw [if_pos hex]
  · rw [hnil]; simp

/-! ### C44 -/

theorem Key.valid {k : Bytes} (h : Key k) : validKey k = true := by
  unfold validKey
  have hl : ¬ (k.length = 0 ∨ k.length > 250) := by have := h.1; have := h.2.1; omega
  have : (k.all fun b => !(b ≤ 32 || b ≥ 0x7F || b = 37 || b = 43 || b = 64 || b = 36 || b = 63 || b = 61)) = true := by
    rw [List.all_eq_true]
    intro b hb
    obtain ⟨h1, h2, h3⟩ := h.2.2 b hb
    have e1 : ¬ b ≤ 32 := by intro hc; rw [UInt8.le_iff_toNat_le] at hc; simp at hc; omega
    have e2 : ¬ b ≥ 0x7F := by intro hc; rw [ge_iff_le, UInt8.le_iff_toNat_le] at hc; simp at hc; omega
    simp only [List.mem_cons, List.not_mem_nil, or_false, not_or] at h3
    simp [e1, e2, h3]
  rw [this]
  simp at hl ⊢
  omega

theorem Request.toArgs (r : Request) (hk : Key r.key) (html : Bool) :
    Http.toArgs r.method.text r.key r.body
      ⟨r.param [[101, 120], [116, 116, 108]], r.param [[102, 108, 97, 103, 115]], r.param [[99, 97, 115]], r.param [[97, 117, 116, 104]],
        r.has [120, 120], r.has [110, 120]⟩ html = .ok r.command := by
  have h64 : r.key.head? ≠ some 64 := by
    intro hc
    exact (hk.2.2 64 (List.mem_of_head? hc)).2.2 (by decide)
  have hne : r.key ≠ [] := by intro hc; have := hk.1; rw [hc] at this; simp at this
  unfold Http.toArgs Request.command
  cases hm : r.method
  · simp [Method.text, h64, hne, hk.valid]
  · rw [if_neg (by decide), if_pos (by decide), if_neg h64]
    simp only [hk.valid, Bool.not_true, Bool.false_eq_true, if_false]
    cases r.param [[99, 97, 115]] <;> cases r.param [[101, 120], [116, 116, 108]] <;> cases r.param [[102, 108, 97, 103, 115]] <;> rfl
  · rw [if_neg (by decide), if_neg (by decide), if_pos (by decide), if_neg h64]
    simp only [hk.valid, Bool.not_true, Bool.false_eq_true, if_false]

theorem queryText_chars {ps : List Param} (h : ∀ p ∈ ps, p.Ok) : ∀ b ∈ queryText ps, b ≠ 32 ∧ b ≠ 10 := by
  have htext : ∀ p : Param, p.Ok → ∀ b ∈ p.text, b ≠ 32 ∧ b ≠ 10 := by
    intro p hp b hb
    unfold Param.text at hb
    cases hv : p.value with
    | none => rw [hv] at hb; exact (hp.2.1 b hb).2.2
    | some v =>
      rw [hv] at hb
      rcases List.mem_append.1 hb with hb | hb
      · exact (hp.2.1 b hb).2.2
      · rcases List.mem_cons.1 hb with rfl | hb
        · decide
        · exact (hp.2.2 v hv b hb).2
  induction ps with
  | nil => simp [queryText]
  | cons p ps ih =>
    intro b hb
    cases ps with
    | nil => exact htext p (h p (by simp)) b hb
    | cons p' ps =>
      have hb : b ∈ p.text ++ 38 :: queryText (p' :: ps) := hb
      rcases List.mem_append.1 hb with hb | hb
      · exact htext p (h p (by simp)) b hb
      · rcases List.mem_cons.1 hb with rfl | hb
        · decide
        · exact ih (fun x hx => h x (by simp [hx])) b hb

theorem takeWhile_path (k t : Bytes) (hk : ∀ b ∈ k, b ≠ 63) (ht : t = [] ∨ ∃ t', t = 63 :: t') : (k ++ t).takeWhile (· ≠ 63) = k := by
  rw [List.takeWhile_append_of_pos (by intro b hb; simpa using hk b hb)]
  rcases ht with rfl | ⟨t', rfl⟩ <;> simp

/-- **C44.**  For all keys, bodies, parameters and header fields in any order, followed by anything: a well-formed request executes exactly the command
it stands for if its password is right (with a configured password) or if there is neither a configured nor a given password; otherwise
it executes nothing.  (With no configured password, requests that give one are refused.) -/
theorem http_request_exact (r : Request) (hr : r.Ok) (pw extra : Bytes) :
    ((pw ≠ [] ∧ r.Gives pw) ∨ (pw = [] ∧ r.Anonymous) → parseHttp pw (r.wire ++ extra) = .got r.command) ∧
    ((pw ≠ [] ∧ ¬ r.Gives pw) → parseHttp pw (r.wire ++ extra) = .err .unauthorized) := by
  obtain ⟨html, hfold⟩ := header_fields r hr
  obtain ⟨hk, hp, hm1, hm2, hfne, hfs, hb, _, _⟩ := hr
  have huri : ∀ b ∈ (47 : UInt8) :: (r.key ++ if r.params = [] then [] else 63 :: queryText r.params), b ≠ 32 ∧ b ≠ 10 := by
    intro b hb
    rcases List.mem_cons.1 hb with rfl | hb
    · decide
    rcases List.mem_append.1 hb with hb | hb
    · have := (hk.2.2 b hb).1
      constructor <;> (rintro rfl; simp at this)
    · split at hb
      · simp at hb
      · rcases List.mem_cons.1 hb with rfl | hb
        · decide
        · exact queryText_chars hp b hb
  have hwire : r.wire ++ extra = r.method.text ++ 32 :: ((47 :: (r.key ++ if r.params = [] then [] else 63 :: queryText r.params)) ++
      32 :: ([72, 84, 84, 80, 47, 49, 46, r.minor, 13] ++ 10 :: ((r.fields.map Field.text).flatten ++ [13, 10] ++ (r.body ++ extra)))) := by
    simp [Request.wire]
  have hmeth : ∀ b ∈ r.method.text, b ≠ 32 ∧ b ≠ 10 := by cases r.method <;> decide
  have hproto : protoOk [72, 84, 84, 80, 47, 49, 46, r.minor, 13] = true := by
    have e1 : (48 : UInt8) ≤ r.minor := by rw [UInt8.le_iff_toNat_le]; simpa using hm1
    have e2 : r.minor ≤ 57 := by rw [UInt8.le_iff_toNat_le]; simpa using hm2
    have e3 : r.minor.toNat - 48 < 10 := by omega
    unfold protoOk
    simp [e1, e2]
    omega
  have hres : parseHttp pw (r.wire ++ extra) = if authorised pw
      ⟨r.param [[101, 120], [116, 116, 108]], r.param [[102, 108, 97, 103, 115]], r.param [[99, 97, 115]], r.param [[97, 117, 116, 104]],
        r.has [120, 120], r.has [110, 120]⟩ ⟨r.body.length, html, r.authField⟩ then .got r.command else .err .unauthorized := by
    unfold parseHttp
    rw [hwire, word_exact _ _ hmeth]
    simp only []
    rw [word_exact _ _ huri]
    simp only []
    rw [upTo_exact 10 _ _ (by
      intro b hb
      simp only [List.mem_cons, List.not_mem_nil, or_false] at hb
      rcases hb with rfl | rfl | rfl | rfl | rfl | rfl | rfl | rfl | rfl
      all_goals first | decide | (intro hc; rw [hc] at hm1; simp at hm1))]
    simp only [hproto, Bool.not_true, Bool.false_eq_true, if_false]
    have hlen : r.fields.length ≤ ((r.fields.map Field.text).flatten ++ [13, 10] ++ (r.body ++ extra)).length := by
      have : ∀ fs : List Field, fs.length ≤ (fs.map Field.text).flatten.length := by
        intro fs
        induction fs with
        | nil => simp
        | cons f fs ih => simp [Field.text] at ih ⊢; omega
      have := this r.fields
      simp only [List.length_append]
      omega
    rw [headers_exact r.fields hfne hfs _ hlen _ _ _ hfold]
    simp only []
    unfold readBody
    rw [if_neg (by simp)]
    simp only []
    have hpath : (r.key ++ if r.params = [] then [] else 63 :: queryText r.params).takeWhile (· ≠ 63) = r.key := by
      apply takeWhile_path
      · intro b hb hc
        exact (hk.2.2 b hb).2.2 (by rw [hc]; decide)
      · split
        · exact Or.inl rfl
        · exact Or.inr ⟨_, rfl⟩
    rw [hpath]
    have hq : query ((r.key ++ if r.params = [] then [] else 63 :: queryText r.params).drop (r.key.length + 1)) [] none
        ⟨none, none, none, none, false, false⟩ = r.params.foldl (fun q p => pair q p.name p.value) ⟨none, none, none, none, false, false⟩ := by
      rw [← query_params r.params hp]
      congr 1
      by_cases hnil : r.params = []
      · rw [if_pos hnil, hnil]; simp [queryText]
      · rw [if_neg hnil, ← List.drop_drop, List.drop_left]; rfl
    rw [hq, params_query, List.take_left, r.toArgs hk]
  have hauth : r.authParam = (r.param [[97, 117, 116, 104]]).getD [] := rfl
  rw [hres]
  unfold authorised
  simp only [← hauth]
  by_cases hq : r.authParam = []
  · simp only [hq, ne_eq, not_true_eq_false, if_false]
    have hg : ∀ p, r.Gives p ↔ r.authField = bearer ++ p := by
      intro p; unfold Request.Gives; rw [hq]; simp
    simp only [hg]
    have hpre : ∀ s : Bytes, ([66, 101, 97, 114, 101, 114, 32] : Bytes).isPrefixOf s = true ↔ ∃ t, s = bearer ++ t := by
      intro s
      rw [List.isPrefixOf_iff_prefix]
      constructor
      · rintro ⟨t, rfl⟩; exact ⟨t, rfl⟩
      · rintro ⟨t, rfl⟩; exact ⟨t, rfl⟩
    constructor
    · rintro (⟨hpw, hg⟩ | ⟨hpw, ha⟩)
      · have h1 : r.authField ≠ [] := by rw [hg]; simp [bearer]
        rw [if_pos h1, if_pos ((hpre _).2 ⟨pw, hg⟩), if_pos (Or.inl hpw)]
        have : r.authField.drop 7 = pw := by rw [hg]; rfl
        simp [this]
      · simp [ha.2, hpw]
    · rintro ⟨hpw, hg⟩
      by_cases h1 : r.authField ≠ []
      · rw [if_pos h1]
        by_cases h2 : ([66, 101, 97, 114, 101, 114, 32] : Bytes).isPrefixOf r.authField = true
        · rw [if_pos h2, if_pos (Or.inl hpw)]
          obtain ⟨t, ht⟩ := (hpre _).1 h2
          have : r.authField.drop 7 = t := by rw [ht]; rfl
          rw [this]
          have hne : ¬ t = pw := by rintro rfl; exact hg ht
          simp [hne]
        · rw [if_neg h2]; simp
      · rw [if_neg h1, if_pos hpw]
        simp [Ne.symm hpw]
  · simp only [ne_eq, hq, not_false_eq_true, if_true]
    constructor
    · rintro (⟨hpw, hg⟩ | ⟨hpw, ha⟩)
      · have : r.authParam = pw := by unfold Request.Gives at hg; rwa [if_pos hq] at hg
        simp [this]
      · exact absurd ha.1 hq
    · rintro ⟨hpw, hg⟩
      have : ¬ r.authParam = pw := by unfold Request.Gives at hg; rwa [if_pos hq] at hg
      simp [this]

/-- PUT /k?ttl=9&nx HTTP/1.1, Host: x, content-Length: 2, body CR LF. -/
example : (⟨.put, [107], [⟨[116, 116, 108], some [57]⟩, ⟨[110, 120], none⟩], 49,
    [⟨[72, 111, 115, 116], 1, [120]⟩, ⟨[99, 111, 110, 116, 101, 110, 116, 45, 76, 101, 110, 103, 116, 104], 0, [50]⟩], [13, 10]⟩ : Request).Ok := by
  have hsp : Spells [99, 111, 110, 116, 101, 110, 116, 45, 76, 101, 110, 103, 116, 104] contentLength := (spells_iff _ _ (by decide)).2 (by decide)
  refine ⟨⟨by decide, by decide, by decide⟩, ?_, by decide, by decide, by simp, ?_, by decide, ?_, Or.inl ⟨_, List.mem_cons_of_mem _ (List.mem_cons_self ..), hsp⟩⟩
  · intro p hp
    simp only [List.mem_cons, List.not_mem_nil, or_false] at hp
    rcases hp with rfl | rfl
    · exact ⟨by simp, by decide, by intro v hv; simp at hv; subst hv; decide⟩
    · exact ⟨by simp, by decide, by intro v hv; simp at hv⟩
  · intro f hf
    simp only [List.mem_cons, List.not_mem_nil, or_false] at hf
    rcases hf with rfl | rfl
    · exact ⟨by simp, by decide, by decide, by decide⟩
    · exact ⟨by simp, by decide, by decide, by decide⟩
  · intro f hf hs
    simp only [List.mem_cons, List.not_mem_nil, or_false] at hf
    rcases hf with rfl | rfl
    · exact absurd ((spells_iff _ _ (by decide)).1 hs) (by decide)
    · exact ⟨by decide, ⟨[], [], [50], rfl, by decide, by decide, by decide, Or.inl ⟨Or.inl rfl, by decide⟩⟩, by simp⟩

/-! ### Refusals: C40 for HTTP, all byte strings -/

theorem upTo_split {c : UInt8} {s w t : Bytes} (h : upTo c s = some (w, t)) : s = w ++ c :: t := by
  induction s generalizing w with
  | nil => simp [upTo] at h
  | cons b s ih =>
    rw [upTo] at h
    split at h
    · rename_i hb; simp at h; rw [h.1, h.2, hb]; rfl
    · simp only [Option.map_eq_some_iff, Prod.mk.injEq] at h
      obtain ⟨⟨a, a'⟩, h1, h2, h3⟩ := h
      subst h3; rw [← h2, ih h1]; rfl

theorem word_split {s w t : Bytes} (h : word s = some (w, t)) : s = w ++ 32 :: t := by
  induction s generalizing w with
  | nil => simp [word] at h
  | cons b s ih =>
    rw [word] at h
    split at h
    · rename_i hb; simp at h; rw [h.1, h.2, hb]; rfl
    · split at h
      · simp at h
      · simp only [Option.map_eq_some_iff, Prod.mk.injEq] at h
        obtain ⟨⟨a, a'⟩, h1, h2, h3⟩ := h
        subst h3; rw [← h2, ih h1]; rfl

theorem header_auth {h h' : Hdrs} {name val : Bytes} (hh : header h name val = some h') : h'.auth = h.auth ∨ h'.auth = val := by
  unfold header at hh
  split at hh
  · split at hh
    · simp at hh
    · split at hh
      · simp at hh
      · simp at hh; rw [← hh]; exact Or.inl rfl
  · split at hh
    · simp at hh; rw [← hh]; exact Or.inl rfl
    · split at hh
      · simp at hh; rw [← hh]; left; split <;> rfl
      · split at hh
        · simp at hh; rw [← hh]; exact Or.inr rfl
        · simp at hh; rw [← hh]; exact Or.inl rfl

theorem headers_auth (fuel : Nat) (s : Bytes) (h h' : Hdrs) (rest : Bytes) (hh : headers fuel s h = .inr (h', rest)) :
    h'.auth = h.auth ∨ h'.auth <:+: s := by
  induction fuel generalizing s h with
  | zero => simp [headers] at hh
  | succ fuel ih =>
    rw [headers] at hh
    split at hh
    · simp at hh
    rename_i name s1 h1
    split at hh
    · simp at hh
    rename_i raw s2 h2
    split at hh
    · simp at hh
    split at hh
    · simp at hh
    rename_i h3 h4
    have e1 := upTo_split h1
    have e2 := upTo_split h2
    have hs2 : s2 <:+: s := by
      have a1 : s2 <:+ s1.dropWhile (· = 32) := ⟨raw ++ [10], by rw [e2]; simp⟩
      have a2 : s1 <:+ s := ⟨name ++ [58], by rw [e1]; simp⟩
      exact ((a1.trans (List.dropWhile_suffix _)).trans a2).isInfix
    have hraw : raw.dropLast <:+: s := by
      have a0 : raw.dropLast <+: s1.dropWhile (· = 32) := (List.dropLast_prefix raw).trans ⟨10 :: s2, by rw [e2]⟩
      have a2 : s1 <:+ s := ⟨name ++ [58], by rw [e1]; simp⟩
      exact a0.isInfix.trans (((List.dropWhile_suffix _).trans a2).isInfix)
    have h5 : h3.auth = h.auth ∨ h3.auth <:+: s := by
      rcases header_auth h4 with h5 | h5
      · exact Or.inl h5
      · right; rw [h5]; exact hraw
    split at hh
    · simp at hh; rw [← hh.1]; exact h5
    · simp at hh
    · simp at hh
    · rcases ih _ _ hh with h6 | h6
      · rw [h6]; exact h5
      · exact Or.inr (h6.trans hs2)

theorem pair_auth (q : Query) (key : Bytes) (val : Option Bytes) : (pair q key val).auth = q.auth ∨ (key = [97, 117, 116, 104] ∧ (pair q key val).auth = val) := by
  unfold pair
  by_cases h : key = [97, 117, 116, 104]
  · subst h; right; exact ⟨rfl, rfl⟩
  · left
    repeat' split
    all_goals rfl

theorem query_auth (s key : Bytes) (val : Option Bytes) (q : Query) (v : Bytes) (h : (query s key val q).auth = some v) :
    q.auth = some v ∨ ([97, 117, 116, 104, 61] ++ v) <:+: (key ++ (match val with | none => [] | some w => 61 :: w) ++ s) := by
  induction s generalizing key val q with
  | nil =>
    cases val with
    | none => rw [query] at h; exact Or.inl h
    | some w =>
      rw [query] at h
      rcases pair_auth q key (some w) with h1 | ⟨h1, h2⟩
      · rw [h1] at h; exact Or.inl h
      · rw [h2] at h
        simp only [Option.some.injEq] at h
        subst h h1
        right; simp
  | cons b s ih =>
    cases val with
    | none =>
      rw [query] at h
      split at h
      · rename_i hb
        rcases ih _ _ _ h with h1 | h1
        · exact Or.inl h1
        · right; subst hb; simpa using h1
      · split at h
        · rcases pair_auth q (key ++ [b]) none with h1 | ⟨h1, h2⟩
          · rw [h1] at h; exact Or.inl h
          · rw [h2] at h; simp at h
        · split at h
          · rcases ih _ _ _ h with h1 | h1
            · rcases pair_auth q key none with h2 | ⟨h2, h3⟩
              · rw [h2] at h1; exact Or.inl h1
              · rw [h3] at h1; simp at h1
            · right
              exact h1.trans ⟨key ++ [b], [], by simp⟩
          · rcases ih _ _ _ h with h1 | h1
            · exact Or.inl h1
            · right; simpa using h1
    | some w =>
      rw [query] at h
      split at h
      · rcases ih _ _ _ h with h1 | h1
        · rcases pair_auth q key (some w) with h2 | ⟨h2, h3⟩
          · rw [h2] at h1; exact Or.inl h1
          · rw [h3] at h1
            simp only [Option.some.injEq] at h1
            subst h1 h2
            right
            exact ⟨[], b :: s, by simp⟩
        · right
          exact h1.trans ⟨key ++ 61 :: w ++ [b], [], by simp⟩
      · rcases ih _ _ _ h with h1 | h1
        · exact Or.inl h1
        · right; simpa using h1

/-- The bytes contain the password where a password belongs: after `auth=` or after `Bearer `. -/
def Presents (pw data : Bytes) : Prop := ([97, 117, 116, 104, 61] ++ pw) <:+: data ∨ (bearer ++ pw) <:+: data

/-- **C40**, HTTP: when a password is configured, then whatever bytes are received, nothing is executed unless they present the password. -/
theorem http_needs_password (pw data : Bytes) (args : List Bytes) (hpw : pw ≠ []) (h : parseHttp pw data = .got args) : Presents pw data := by
  unfold parseHttp at h
  split at h
  · simp at h
  rename_i method s1 h1
  split at h
  · simp at h
  rename_i uri s2 h2
  split at h
  · simp at h
  rename_i l s3 h3
  split at h
  · simp at h
  split at h
  · subst h
    rename_i h4
    exact absurd h4 (by
      have : ∀ (n : Nat) (s : Bytes) (hd : Hdrs), headers n s hd ≠ .inl (.got args) := by
        intro n
        induction n with
        | zero => intro s hd; simp [headers]
        | succ n ih =>
          intro s hd hc
          rw [headers] at hc
          repeat' split at hc
          all_goals first | (simp at hc; done) | exact ih _ _ hc
      exact this _ _ _)
  · rename_i hd rest h4
    have e1 := word_split h1
    have e2 := word_split h2
    have e3 := upTo_split h3
    have i1 : uri <:+: data := ⟨method ++ [32], 32 :: s2, by rw [e1, e2]; simp⟩
    have i3 : s3 <:+: data := ⟨method ++ [32] ++ uri ++ [32] ++ l ++ [10], [], by rw [e1, e2, e3]; simp⟩
    have ha : hd.auth = [] ∨ hd.auth <:+: data := by
      rcases headers_auth _ _ _ _ _ h4 with h5 | h5
      · exact Or.inl h5
      · exact Or.inr (h5.trans i3)
    unfold readBody at h
    split at h
    · simp at h
    split at h
    · rename_i u
      simp only [] at h
      split at h
      · simp at h
      split at h
      · rename_i hauth
        unfold authorised at hauth
        simp only [] at hauth
        split at hauth
        · rename_i hq
          left
          simp only [decide_eq_true_eq] at hauth
          generalize hqq : query _ [] none _ = q at hauth hq
          cases hqa : q.auth with
          | none => rw [hqa] at hq; simp at hq
          | some v =>
            rw [hqa] at hauth
            simp only [Option.getD_some] at hauth
            subst hauth
            rw [← hqq] at hqa
            rcases query_auth _ _ _ _ _ hqa with h6 | h6
            · simp at h6
            · simp only [List.append_nil, List.nil_append] at h6
              refine (h6.trans (List.drop_suffix _ _).isInfix).trans ?_
              exact (List.suffix_cons _ _).isInfix.trans i1
        · split at hauth
          · split at hauth
            · rename_i hne hpre
              rw [if_pos (Or.inl hpw)] at hauth
              simp only [decide_eq_true_eq] at hauth
              right
              rw [List.isPrefixOf_iff_prefix] at hpre
              obtain ⟨t, ht⟩ := hpre
              rw [← ht] at hauth
              have : t = pw := hauth
              subst this
              rcases ha with ha | ha
              · exact absurd ha hne
              · rw [← ht] at ha; exact ha
            · simp at hauth
          · simp only [decide_eq_true_eq] at hauth
            exact absurd hauth.symm hpw
      · simp at h
    · simp at h

/-- GET /k?auth=pw HTTP/1.1 / a: b. -/
example : parseHttp [112, 119] ([71, 69, 84, 32, 47, 107, 63, 97, 117, 116, 104, 61, 112, 119, 32, 72, 84, 84, 80, 47, 49, 46, 49, 13, 10, 97, 58, 32, 98, 13, 10, 13, 10]) =
    .got [[103, 101, 116], [107]] := by decide +kernel

/-! ### What is wrong -/

/-- The search for the colon of a header runs over the end of the header part: a request without header fields is never answered, whatever its
key and parameters, as long as nothing follows it. -/
theorem no_headers_never_answered (m : Method) (key : Bytes) (hk : Key key) (minor : UInt8) (h1 : 48 ≤ minor.toNat) (h2 : minor.toNat ≤ 57)
    (pw body : Bytes) (hb : 58 ∉ body) :
    parseHttp pw (m.text ++ [32, 47] ++ key ++ [32, 72, 84, 84, 80, 47, 49, 46, minor, 13, 10] ++ [13, 10] ++ body) = .more := by
  have hwire : m.text ++ [32, 47] ++ key ++ [32, 72, 84, 84, 80, 47, 49, 46, minor, 13, 10] ++ [13, 10] ++ body =
      m.text ++ 32 :: ((47 :: key) ++ 32 :: ([72, 84, 84, 80, 47, 49, 46, minor, 13] ++ 10 :: (13 :: 10 :: body))) := by simp
  have hmeth : ∀ b ∈ m.text, b ≠ 32 ∧ b ≠ 10 := by cases m <;> decide
  have huri : ∀ b ∈ (47 : UInt8) :: key, b ≠ 32 ∧ b ≠ 10 := by
    intro b hb
    rcases List.mem_cons.1 hb with rfl | hb
    · decide
    · have := (hk.2.2 b hb).1
      constructor <;> (rintro rfl; simp at this)
  have hproto : protoOk [72, 84, 84, 80, 47, 49, 46, minor, 13] = true := by
    have e1 : (48 : UInt8) ≤ minor := by rw [UInt8.le_iff_toNat_le]; simpa using h1
    have e2 : minor ≤ 57 := by rw [UInt8.le_iff_toNat_le]; simpa using h2
    unfold protoOk
    simp [e1, e2]
    omega
  unfold parseHttp
  rw [hwire, word_exact _ _ hmeth]
  simp only []
  rw [word_exact _ _ huri]
  simp only []
  rw [upTo_exact 10 _ _ (by
    intro b hb
    simp only [List.mem_cons, List.not_mem_nil, or_false] at hb
    rcases hb with rfl | rfl | rfl | rfl | rfl | rfl | rfl | rfl | rfl
    all_goals first | decide | (intro hc; rw [hc] at h1; simp at h1))]
  simp only [hproto, Bool.not_true, Bool.false_eq_true, if_false]
  have hno : upTo 58 (13 :: 10 :: body) = none := by
    have : ∀ s : Bytes, 58 ∉ s → upTo 58 s = none := by
      intro s hs
      induction s with
      | nil => rfl
      | cons b s ih =>
        simp only [List.mem_cons, not_or] at hs
        rw [upTo, if_neg (Ne.symm hs.1), ih hs.2]; rfl
    apply this
    simp [hb]
  simp only [List.length_cons, headers, hno]

example : Key [107] ∧ (58 : UInt8) ∉ ([] : Bytes) := ⟨⟨by decide, by decide, by decide⟩, by decide⟩

/-- PUT /k?nx& stores without NX: the last name is read as `nx&`.  (PUT /k?nx stores with NX.) -/
theorem nx_before_ampersand_ignored :
    parseHttp [] [80, 85, 84, 32, 47, 107, 63, 110, 120, 38, 32, 72, 84, 84, 80, 47, 49, 46, 49, 13, 10, 97, 58, 98, 13, 10, 13, 10] = .got [[115, 101, 116], [107], []] ∧
    parseHttp [] [80, 85, 84, 32, 47, 107, 63, 110, 120, 32, 72, 84, 84, 80, 47, 49, 46, 49, 13, 10, 97, 58, 98, 13, 10, 13, 10] =
      .got [[115, 101, 116], [107], [], [110, 120]] := by
  constructor <;> decide +kernel

/-- GET /k HTTP/1.1 / Authorization: Bearer x on a server without password is refused. -/
theorem token_without_password_refused :
    parseHttp [] [71, 69, 84, 32, 47, 107, 32, 72, 84, 84, 80, 47, 49, 46, 49, 13, 10, 65, 117, 116, 104, 111, 114, 105, 122, 97, 116, 105, 111, 110, 58, 32, 66, 101, 97, 114, 101, 114, 32, 120, 13, 10, 13, 10] =
      .err .unauthorized := by decide +kernel

/-- GET /k HTTP/1.1 / a: b followed by CR LF: when only the CR of the final CR LF has arrived, the request is refused. -/
theorem split_before_last_lf_refused :
    parseHttp [] [71, 69, 84, 32, 47, 107, 32, 72, 84, 84, 80, 47, 49, 46, 49, 13, 10, 97, 58, 32, 98, 13, 10, 13] = .err .badRequest ∧
    parseHttp [] [71, 69, 84, 32, 47, 107, 32, 72, 84, 84, 80, 47, 49, 46, 49, 13, 10, 97, 58, 32, 98, 13, 10, 13, 10] = .got [[103, 101, 116], [107]] := by
  constructor <;> decide +kernel

end Verif.Http
