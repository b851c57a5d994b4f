import Mathlib.Tactic.Common
import Verif.Mc.Model
import Verif.Resp.Inline

/-!
C37 (parser), C58, C59: memcache requests.
-/

namespace Verif.Mc

open Verif.Num Verif.Resp

/-! ### Specification -/

/-- A memcache key: 1 to 250 bytes, no blanks or control characters. -/
def Key (k : Bytes) : Prop := 1 ≤ k.length ∧ k.length ≤ 250 ∧ ∀ b ∈ k, 32 < b.toNat ∧ b.toNat ≠ 127

/-- A word of a request line. -/
def Word (w : Bytes) : Prop := w ≠ [] ∧ ∀ b ∈ w, b ≠ 32 ∧ b ≠ 10 ∧ b ≠ 13

/-- A natural number in digits. -/
def NatText (t : Bytes) (n : Nat) : Prop :=
  t ≠ [] ∧ t.length ≤ 20 ∧ (∀ b ∈ t, b ∈ ([48, 49, 50, 51, 52, 53, 54, 55, 56, 57] : Bytes)) ∧ decimal t = n

/-- An expiry: digits, or a minus sign and digits; zero is written "0". -/
def ExpText (t : Bytes) (e : Int) : Prop :=
  (∃ n, NatText t n ∧ e = n ∧ (n = 0 → t = [48])) ∨ (∃ d n, t = 45 :: d ∧ NatText d n ∧ e = -(n : Int) ∧ n ≠ 0)

inductive Verb where
  | set | add | replace | append | prepend | cas
deriving DecidableEq, Repr

def Verb.name : Verb → Bytes
  | .set => [115, 101, 116]
  | .add => [97, 100, 100]
  | .replace => [114, 101, 112, 108, 97, 99, 101]
  | .append => [97, 112, 112, 101, 110, 100]
  | .prepend => [112, 114, 101, 112, 101, 110, 100]
  | .cas => [99, 97, 115]

/-- A storage request as written by a client: verb, key, texts of the numbers, data, and whether `noreply` is given. -/
structure Store where
  verb : Verb
  key : Bytes
  flags : Bytes
  exp : Bytes
  size : Bytes
  token : Bytes
  noreply : Bool
  data : Bytes

/-- The request is well formed: flags `f`, expiry `e`, CAS token `c`; the size is that of the data. -/
def Store.Ok (r : Store) (f : Nat) (e : Int) (c : Nat) : Prop :=
  Key r.key ∧ NatText r.flags f ∧ f < 2 ^ 32 ∧ ExpText r.exp e ∧ IsI64 e ∧ NatText r.size r.data.length ∧ r.data.length ≤ 536870912 ∧
    NatText r.token c ∧ c < 2 ^ 64

/-- Words separated by single blanks. -/
def joined : List Bytes → Bytes
  | [] => []
  | [w] => w
  | w :: ws => w ++ 32 :: joined ws

def noreplyWord : Bytes := [110, 111, 114, 101, 112, 108, 121]

/-- The words of the line: verb key flags exptime bytes [cas] [noreply]. -/
def Store.words (r : Store) : List Bytes :=
  [r.verb.name, r.key, r.flags, r.exp, r.size] ++ (if r.verb = .cas then [r.token] else []) ++ (if r.noreply then [noreplyWord] else [])

/-- The request on the wire: the line, the data block, each followed by CR LF. -/
def Store.wire (r : Store) : Bytes := joined r.words ++ [13, 10] ++ r.data ++ [13, 10]

/-- The command that shall be executed: `SET key data [FLAGS f] [EX e] [NX|XX] [CAS c]`, `APPEND key data` or `PREPEND key data`;
options with value 0 may be left out. -/
def Store.command (r : Store) : List Bytes :=
  match r.verb with
  | .append => [[97, 112, 112, 101, 110, 100], r.key, r.data]
  | .prepend => [[112, 114, 101, 112, 101, 110, 100], r.key, r.data]
  | .set => [[115, 101, 116], r.key, r.data] ++ opts
  | .add => [[115, 101, 116], r.key, r.data] ++ opts ++ [[110, 120]]
  | .replace => [[115, 101, 116], r.key, r.data] ++ opts ++ [[120, 120]]
  | .cas => [[115, 101, 116], r.key, r.data] ++ opts ++ [[99, 97, 115], r.token]
where
  opts := (if r.flags = [48] then [] else [[102, 108, 97, 103, 115], r.flags]) ++ (if r.exp = [48] then [] else [[101, 120], r.exp])

/-! ### Lines -/

theorem lineLoop_more (s : Bytes) (h : 10 ∉ s) (i : Nat) (as : List Bytes) (w : Bytes) (l : UInt8) : lineLoop s i as w l = .more := by
  induction s generalizing i as w l with
  | nil => rfl
  | cons b s ih =>
    have hs : 10 ∉ s := fun hc => h (by simp [hc])
    have hb : b ≠ 10 := by rintro rfl; exact h (by simp)
    rw [lineLoop]
    by_cases h1 : b = 32
    · rw [if_pos h1]; exact ih hs _ _ _ _
    · rw [if_neg h1, if_neg hb]; exact ih hs _ _ _ _

theorem lineLoop_word (w : Bytes) (hw : ∀ b ∈ w, b ≠ 32 ∧ b ≠ 10 ∧ b ≠ 13) (r : Bytes) (i : Nat) (as : List Bytes) (a : Bytes) (l : UInt8) :
    lineLoop (w ++ r) i as a l = lineLoop r (i + w.length) as (a ++ w) (w.getLast?.getD l) := by
  induction w generalizing i a l with
  | nil => simp
  | cons b w ih =>
    have hb := hw b (by simp)
    rw [List.cons_append, lineLoop, if_neg hb.1, if_neg hb.2.1, ih (fun x hx => hw x (by simp [hx]))]
    have h1 : i + 1 + w.length = i + (b :: w).length := by simp; omega
    have h2 : a ++ [b] ++ w = a ++ b :: w := by simp
    have h3 : (w.getLast?.getD b) = ((b :: w).getLast?.getD l) := by
      cases w with
      | nil => rfl
      | cons c w => simp [List.getLast?_cons_cons, List.getLast?_eq_some_getLast]
    rw [h1, h2, h3]

theorem lineLoop_joined (ws : List Bytes) (hne : ws ≠ []) (hw : ∀ w ∈ ws, Word w) (r : Bytes) (i : Nat) (as : List Bytes) (l : UInt8) :
    lineLoop (joined ws ++ 13 :: 10 :: r) i as [] l = .got (as ++ ws, i + (joined ws).length + 2) := by
  induction ws generalizing i as l with
  | nil => exact absurd rfl hne
  | cons w ws ih =>
    cases ws with
    | nil =>
      have hw0 := hw w (by simp)
      have hl : 0 < w.length := List.length_pos_iff.2 hw0.1
      rw [joined, lineLoop_word w hw0.2, lineLoop, if_neg (by decide), if_neg (by decide), lineLoop, if_neg (by decide), if_pos rfl,
        if_pos rfl, if_neg (by simp), if_pos (by simpa using hl)]
      simp
    | cons w' ws =>
      have hw0 := hw w (by simp)
      have hj : joined (w :: w' :: ws) = w ++ 32 :: joined (w' :: ws) := rfl
      rw [hj, List.append_assoc, lineLoop_word w hw0.2, List.cons_append, lineLoop, if_pos rfl, List.nil_append,
        ih (by simp) (fun x hx => hw x (by simp [hx]))]
      simp
      omega

theorem parseLine_joined {ws : List Bytes} (hne : ws ≠ []) (hw : ∀ w ∈ ws, Word w) (r : Bytes) :
    parseLine (joined ws ++ [13, 10] ++ r) = .got (ws, (joined ws ++ [13, 10]).length) := by
  have := lineLoop_joined ws hne hw r 0 [] 0
  simpa [parseLine] using this

theorem joined_no_lf {ws : List Bytes} (hw : ∀ w ∈ ws, Word w) : 10 ∉ joined ws ++ [13] := by
  have : 10 ∉ joined ws := by
    induction ws with
    | nil => simp [joined]
    | cons w ws ih =>
      have h0 := hw w (by simp)
      have h1 : 10 ∉ w := fun hc => (h0.2 10 hc).2.1 rfl
      cases ws with
      | nil => exact h1
      | cons w' ws =>
        have h2 := ih fun x hx => hw x (by simp [hx])
        have hj : joined (w :: w' :: ws) = w ++ 32 :: joined (w' :: ws) := rfl
        rw [hj]
        simp [h1, h2]
  simp [this]

theorem parseLine_cut {ws : List Bytes} (hw : ∀ w ∈ ws, Word w) {p : Bytes} (hp : p <+: joined ws ++ [13, 10])
    (hne : p ≠ joined ws ++ [13, 10]) : parseLine p = .more := by
  apply lineLoop_more
  have : p <+: joined ws ++ [13] := by
    have he : joined ws ++ [13, 10] = (joined ws ++ [13]) ++ [10] := by simp
    rw [he] at hp hne
    rcases List.prefix_concat_iff.1 hp with h | h
    · exact absurd h hne
    · exact h
  exact fun hc => joined_no_lf hw (this.subset hc)

/-! ### Words -/

theorem Key.word {k : Bytes} (h : Key k) : Word k := by
  refine ⟨by rintro rfl; simp [Key] at h, fun b hb => ?_⟩
  have := h.2.2 b hb
  refine ⟨?_, ?_, ?_⟩ <;> rintro rfl <;> simp at this

theorem Key.valid {k : Bytes} (h : Key k) : validKey k = true := by
  unfold validKey
  have hl : ¬ (k.length = 0 ∨ k.length > 250) := by have := h.1; have := h.2.1; omega
  have : (k.all fun b => !(decide (b ≤ 32) || decide (b = 0x7F))) = true := by
    rw [List.all_eq_true]
    intro b hb
    have := h.2.2 b hb
    have h1 : ¬ b ≤ 32 := by intro hc; rw [UInt8.le_iff_toNat_le] at hc; simp at hc; omega
    have h2 : b ≠ 0x7F := by rintro rfl; simp at this
    simp [h1, h2]
  rw [this]
  simp at hl ⊢
  omega

theorem NatText.word {t : Bytes} {n : Nat} (h : NatText t n) : Word t := by
  refine ⟨h.1, fun b hb => ?_⟩
  have := h.2.2.1 b hb
  refine ⟨?_, ?_, ?_⟩ <;> rintro rfl <;> simp at this

theorem NatText.i64 {t : Bytes} {n : Nat} (h : NatText t n) (hn : n ≤ 2 ^ 63 - 1) : parseI64 t = some (n : Int) := by
  rw [parseI64_iff]
  right
  refine ⟨by have := h.2.1; omega, ⟨[], [], t, by simp, by simp, h.1, h.2.2.1, Or.inl ⟨Or.inl rfl, by rw [h.2.2.2]⟩⟩, by omega, by omega⟩

theorem NatText.u64 {t : Bytes} {n : Nat} (h : NatText t n) (hn : n < 2 ^ 64) : parseU64 t = some n := by
  have hh : ∀ b, t.head? = some b → b ∈ ([48, 49, 50, 51, 52, 53, 54, 55, 56, 57] : Bytes) := by
    intro b hb
    exact h.2.2.1 b (List.mem_of_head? hb)
  rw [parseU64_exact_partial t n ?_]
  · right
    refine ⟨by have := h.2.1; omega, ⟨[], [], t, by simp, by simp, h.1, h.2.2.1, Or.inl ⟨Or.inl rfl, by rw [h.2.2.2]⟩⟩, ?_, hn⟩
    intro hc
    have := hh 45 hc
    simp at this
  · intro b hb hc
    have := hh b hb
    simp only [List.mem_cons, List.not_mem_nil, or_false] at this hc
    rcases this with rfl | rfl | rfl | rfl | rfl | rfl | rfl | rfl | rfl | rfl <;> simp at hc

theorem ExpText.i64 {t : Bytes} {e : Int} (h : ExpText t e) (he : IsI64 e) : parseI64 t = some e := by
  unfold IsI64 at he
  rcases h with ⟨n, h, rfl, _⟩ | ⟨d, n, rfl, h, rfl, _⟩
  · exact h.i64 (by omega)
  · rw [parseI64_iff]
    right
    refine ⟨by have := h.2.1; simp; omega, ⟨[], [45], d, by simp, by simp, h.1, h.2.2.1, Or.inr ⟨rfl, by rw [h.2.2.2]⟩⟩, by omega, by omega⟩

theorem ExpText.word {t : Bytes} {e : Int} (h : ExpText t e) : Word t := by
  rcases h with ⟨n, h, _⟩ | ⟨d, n, rfl, h, _⟩
  · exact h.word
  · refine ⟨by simp, fun b hb => ?_⟩
    rcases List.mem_cons.1 hb with rfl | hb
    · decide
    · exact h.word.2 b hb

theorem noreply_word : Word noreplyWord := by unfold Word noreplyWord; decide

theorem Verb.name_word (v : Verb) : Word v.name := by cases v <;> (unfold Word Verb.name; decide)

theorem Store.Ok.word {r : Store} {f : Nat} {e : Int} {c : Nat} (h : r.Ok f e c) : ∀ w ∈ r.words, Word w := by
  obtain ⟨h1, h2, _, h3, _, h4, _, h5, _⟩ := h
  intro w hw
  unfold Store.words at hw
  simp only [List.mem_append, List.mem_cons, List.not_mem_nil, or_false] at hw
  rcases hw with ((rfl | rfl | rfl | rfl | rfl) | hw) | hw
  · exact r.verb.name_word
  · exact h1.word
  · exact h2.word
  · exact h3.word
  · exact h4.word
  · split at hw
    · rw [List.mem_singleton] at hw; rw [hw]; exact h5.word
    · simp at hw
  · split at hw
    · rw [List.mem_singleton] at hw; rw [hw]; exact noreply_word
    · simp at hw

theorem NatText.ne_noreply {t : Bytes} {n : Nat} (h : NatText t n) : t ≠ noreplyWord := by
  rintro rfl
  have := h.2.2.1 110 (by simp [noreplyWord])
  simp at this

/-! ### Storage requests -/

theorem withValue_exact (hd v rest : Bytes) (k : Bytes → Req) :
    withValue (hd ++ (v ++ [13, 10] ++ rest)) hd.length v.length k = .got (k v, hd.length + v.length + 2) := by
  unfold withValue
  rw [if_neg (by simp), if_neg, List.drop_left]
  · rw [List.append_assoc, List.take_left]
  · have h1 : (hd ++ (v ++ [13, 10] ++ rest))[hd.length + v.length]? = some 13 := by
      rw [List.getElem?_append_right (by omega), List.append_assoc, List.getElem?_append_right (by omega)]
      simp
    have h2 : (hd ++ (v ++ [13, 10] ++ rest))[hd.length + v.length + 1]? = some 10 := by
      rw [List.getElem?_append_right (by omega), List.append_assoc, List.getElem?_append_right (by omega)]
      have : hd.length + v.length + 1 - hd.length - v.length = 1 := by omega
      rw [this]; rfl
    rw [h1, h2]; decide

theorem withValue_cut (hd v p : Bytes) (hp : p <+: v ++ [13, 10]) (hne : p ≠ v ++ [13, 10]) (k : Bytes → Req) :
    withValue (hd ++ p) hd.length v.length k = .more := by
  have hl : p.length < v.length + 2 := by
    have h1 := hp.length_le
    simp at h1
    by_contra hc
    exact hne (hp.eq_of_length (by simp; omega))
  unfold withValue
  rw [if_pos (by simp; omega)]

/-- Whatever follows the line, a well-formed storage request takes the data from behind it. -/
theorem parseMc_store {r : Store} {f : Nat} {e : Int} {c : Nat} (h : r.Ok f e c) {data : Bytes} {n : Nat}
    (hd : parseLine data = .got (r.words, n)) :
    ∃ k : Bytes → Req, k r.data = .cmd r.command r.noreply ∧ parseMc data = withValue data n r.data.length k := by
  obtain ⟨hk, hf, hfb, he, heb, hs, hsb, ht, htb⟩ := h
  have v1 := hk.valid
  have p2 := hf.i64 (by omega)
  have p3 := he.i64 heb
  have p4 := hs.i64 (by omega)
  have p5 := ht.u64 htb
  have ns := hs.ne_noreply
  have nt := ht.ne_noreply
  have hfn : ¬ ((f : Int) < 0) := by omega
  have hsm : ¬ ((r.data.length : Int) < 0 ∨ (r.data.length : Int) > maxArgSz) := by unfold maxArgSz; omega
  unfold noreplyWord at ns nt
  obtain ⟨verb, key, flags, exp, size, token, nr, v⟩ := r
  simp only [] at *
  unfold parseMc
  rw [hd]
  unfold Store.words Store.command Store.command.opts noreplyWord
  cases verb <;> cases nr
  case set.false =>
    by_cases h0 : flags = [48]
    · by_cases h3 : exp = [48]
      · simp [PR.bind, Verb.name, arg, setFive, v1, p4, hsm, h0, h3]
        exact ⟨_, by simp, rfl⟩
      · simp [PR.bind, Verb.name, arg, setFive, v1, p3, p4, hsm, h0, h3]
        exact ⟨_, by simp, rfl⟩
    · simp [PR.bind, Verb.name, arg, storePlus, v1, p2, p3, p4, hfn, hsm, h0]
      refine ⟨_, ?_, rfl⟩
      simp [storeArgs, h0]
  all_goals
    simp [PR.bind, Verb.name, arg, lookup, Cmd.noreplyable, Cmd.isStore, storePlus, v1, p2, p3, p4, p5, hfn, hsm, ns, nt]
    refine ⟨_, ?_, rfl⟩
    simp [storeArgs]

theorem Store.words_ne_nil (r : Store) : r.words ≠ [] := by simp [Store.words]

/-- **C37** (first half; `Verif.Cmd.mc_store_stores_partial` is the other).  A well-formed storage request, followed by anything, is turned into the store
command with exactly the given key, exactly the announced number of data bytes whatever they are, and the given options; exactly the
request is used up. -/
theorem mc_store_parse {r : Store} {f : Nat} {e : Int} {c : Nat} (h : r.Ok f e c) (rest : Bytes) :
    parseMc (r.wire ++ rest) = .got (.cmd r.command r.noreply, r.wire.length) := by
  have hl := parseLine_joined r.words_ne_nil h.word (r.data ++ [13, 10] ++ rest)
  have hw : r.wire ++ rest = (joined r.words ++ [13, 10]) ++ (r.data ++ [13, 10] ++ rest) := by simp [Store.wire]
  rw [hw]
  obtain ⟨k, hk, hp⟩ := parseMc_store h hl
  rw [hp, withValue_exact, hk]
  simp [Store.wire]
  omega

theorem store_framed {r : Store} {f : Nat} {e : Int} {c : Nat} (h : r.Ok f e c) :
    Framed parseMc (.cmd r.command r.noreply) r.wire := by
  refine ⟨by simp [Store.wire], mc_store_parse h, ?_⟩
  intro p hp hne _
  have hw : r.wire = (joined r.words ++ [13, 10]) ++ (r.data ++ [13, 10]) := by simp [Store.wire]
  rw [hw] at hp hne
  by_cases hq : p <+: joined r.words ++ [13, 10] ∧ p ≠ joined r.words ++ [13, 10]
  · unfold parseMc
    rw [parseLine_cut h.word hq.1 hq.2]
    rfl
  · have : ∃ p', p = (joined r.words ++ [13, 10]) ++ p' ∧ p' <+: r.data ++ [13, 10] := by
      rcases prefix_append_cases hp with h1 | h1
      · have : p = joined r.words ++ [13, 10] := by by_contra hc; exact hq ⟨h1, hc⟩
        exact ⟨[], by simpa using this, List.nil_prefix⟩
      · exact h1
    obtain ⟨p', rfl, hp'⟩ := this
    obtain ⟨k, _, hpm⟩ := parseMc_store h (parseLine_joined r.words_ne_nil h.word p')
    rw [hpm]
    exact withValue_cut _ _ _ hp' (by rintro rfl; exact hne rfl) k

/-! ### The other requests -/

/-- The other well-formed requests, with the command they stand for (get and gets are MGET and MGETS, incr and decr are the unsigned
INCRBY and DECRBY, touch is EXPIRE).  The last flag says that `noreply` was given. -/
inductive Line : List Bytes → List Bytes → Bool → Prop
  | get {ks} : ks ≠ [] → (∀ k ∈ ks, Key k) → Line ([103, 101, 116] :: ks) ([109, 103, 101, 116] :: ks) false
  | gets {ks} : ks ≠ [] → (∀ k ∈ ks, Key k) → Line ([103, 101, 116, 115] :: ks) ([109, 103, 101, 116, 115] :: ks) false
  | delete {k} : Key k → Line [[100, 101, 108, 101, 116, 101], k] [[100, 101, 108], k] false
  | incr {k t n} : Key k → NatText t n → Line [[105, 110, 99, 114], k, t] [[117, 105, 110, 99, 114, 98, 121], k, t] false
  | decr {k t n} : Key k → NatText t n → Line [[100, 101, 99, 114], k, t] [[117, 100, 101, 99, 114, 98, 121], k, t] false
  | touch {k t e} : Key k → ExpText t e → Line [[116, 111, 117, 99, 104], k, t] [[101, 120, 112, 105, 114, 101], k, t] false
  | flushAll : Line [[102, 108, 117, 115, 104, 95, 97, 108, 108]] [[102, 108, 117, 115, 104, 97, 108, 108]] false
  | deleteN {k} : Key k → Line [[100, 101, 108, 101, 116, 101], k, noreplyWord] [[100, 101, 108], k] true
  | incrN {k t n} : Key k → NatText t n → Line [[105, 110, 99, 114], k, t, noreplyWord] [[117, 105, 110, 99, 114, 98, 121], k, t] true
  | decrN {k t n} : Key k → NatText t n → Line [[100, 101, 99, 114], k, t, noreplyWord] [[117, 100, 101, 99, 114, 98, 121], k, t] true
  | touchN {k t e} : Key k → ExpText t e → Line [[116, 111, 117, 99, 104], k, t, noreplyWord] [[101, 120, 112, 105, 114, 101], k, t] true
  | flushAllN : Line [[102, 108, 117, 115, 104, 95, 97, 108, 108], noreplyWord] [[102, 108, 117, 115, 104, 97, 108, 108]] true
  | flushAllD {t n} : NatText t n → Line [[102, 108, 117, 115, 104, 95, 97, 108, 108], t]
      [[102, 108, 117, 115, 104, 97, 108, 108], [100, 101, 108, 97, 121], t] false
  | flushAllDN {t n} : NatText t n → Line [[102, 108, 117, 115, 104, 95, 97, 108, 108], t, noreplyWord]
      [[102, 108, 117, 115, 104, 97, 108, 108], [100, 101, 108, 97, 121], t] true
  | version : Line [[118, 101, 114, 115, 105, 111, 110]] [[118, 101, 114, 115, 105, 111, 110]] false
  | quit : Line [[113, 117, 105, 116]] [[113, 117, 105, 116]] true

/-- The commands of memcache: set, add, cas, replace, get, delete, append, prepend, gets, incr, decr, touch, gat, gats, flush_all, stats, version, quit, verbosity. -/
def commandNames : List Bytes :=
  [[115, 101, 116], [97, 100, 100], [99, 97, 115], [114, 101, 112, 108, 97, 99, 101], [103, 101, 116], [100, 101, 108, 101, 116, 101],
   [97, 112, 112, 101, 110, 100], [112, 114, 101, 112, 101, 110, 100], [103, 101, 116, 115], [105, 110, 99, 114], [100, 101, 99, 114],
   [116, 111, 117, 99, 104], [103, 97, 116], [103, 97, 116, 115], [102, 108, 117, 115, 104, 95, 97, 108, 108], [115, 116, 97, 116, 115],
   [118, 101, 114, 115, 105, 111, 110], [113, 117, 105, 116], [118, 101, 114, 98, 111, 115, 105, 116, 121]]

/-- Well-formed requests (commands, flag `noreply` and bytes), and lines that start with something else, which are answered "ERROR". -/
def Request (q : Req) (w : Bytes) : Prop :=
  (∃ r f e c, Store.Ok r f e c ∧ q = .cmd r.command r.noreply ∧ w = r.wire) ∨
  (∃ ws as nr, Line ws as nr ∧ q = .cmd as nr ∧ w = joined ws ++ [13, 10]) ∨
  (∃ w0 ws, w0 ∉ commandNames ∧ (∀ x ∈ w0 :: ws, Word x) ∧ q = .bad .error ∧ w = joined (w0 :: ws) ++ [13, 10])

theorem ExpText.ne_noreply {t : Bytes} {e : Int} (h : ExpText t e) : t ≠ noreplyWord := by
  rcases h with ⟨n, h, _⟩ | ⟨d, n, rfl, _⟩
  · exact h.ne_noreply
  · simp [noreplyWord]

theorem Line.word {ws as : List Bytes} {nr : Bool} (h : Line ws as nr) : ∀ w ∈ ws, Word w := by
  have hlit : ∀ w : Bytes, w ≠ [] → (∀ b ∈ w, b ≠ 32 ∧ b ≠ 10 ∧ b ≠ 13) → Word w := fun w h1 h2 => ⟨h1, h2⟩
  intro w hw
  cases h <;> simp only [List.mem_cons, List.not_mem_nil, or_false] at hw
  case get hk => rcases hw with rfl | hw; exacts [hlit _ (by simp) (by decide), (hk w hw).word]
  case gets hk => rcases hw with rfl | hw; exacts [hlit _ (by simp) (by decide), (hk w hw).word]
  case delete hk => rcases hw with rfl | rfl; exacts [hlit _ (by simp) (by decide), hk.word]
  case incr hk ht => rcases hw with rfl | rfl | rfl; exacts [hlit _ (by simp) (by decide), hk.word, ht.word]
  case decr hk ht => rcases hw with rfl | rfl | rfl; exacts [hlit _ (by simp) (by decide), hk.word, ht.word]
  case touch hk ht => rcases hw with rfl | rfl | rfl; exacts [hlit _ (by simp) (by decide), hk.word, ht.word]
  case deleteN hk => rcases hw with rfl | rfl | rfl; exacts [hlit _ (by simp) (by decide), hk.word, noreply_word]
  case incrN hk ht => rcases hw with rfl | rfl | rfl | rfl; exacts [hlit _ (by simp) (by decide), hk.word, ht.word, noreply_word]
  case decrN hk ht => rcases hw with rfl | rfl | rfl | rfl; exacts [hlit _ (by simp) (by decide), hk.word, ht.word, noreply_word]
  case touchN hk ht => rcases hw with rfl | rfl | rfl | rfl; exacts [hlit _ (by simp) (by decide), hk.word, ht.word, noreply_word]
  case flushAll => subst hw; exact hlit _ (by simp) (by decide)
  case flushAllN => rcases hw with rfl | rfl; exacts [hlit _ (by simp) (by decide), noreply_word]
  case flushAllD ht => rcases hw with rfl | rfl; exacts [hlit _ (by simp) (by decide), ht.word]
  case flushAllDN ht => rcases hw with rfl | rfl | rfl; exacts [hlit _ (by simp) (by decide), ht.word, noreply_word]
  case version => subst hw; exact hlit _ (by simp) (by decide)
  case quit => subst hw; exact hlit _ (by simp) (by decide)

/-- The line asks to delete the key `noreply`. -/
def DeletesNoreply (ws : List Bytes) : Prop := ws = [[100, 101, 108, 101, 116, 101], noreplyWord]

theorem parseMc_line {ws as : List Bytes} {nr : Bool} (h : Line ws as nr) (hx : ¬ DeletesNoreply ws) {data : Bytes} {n : Nat}
    (hd : parseLine data = .got (ws, n)) : parseMc data = .got (.cmd as nr, n) := by
  have hall : ∀ ks : List Bytes, (∀ k ∈ ks, Key k) → ks.all validKey = true := by
    intro ks hks
    rw [List.all_eq_true]
    exact fun k hk => (hks k hk).valid
  unfold parseMc
  rw [hd]
  cases h
  case get ks hne hk =>
    have := hall ks hk
    cases ks with
    | nil => exact absurd rfl hne
    | cons k ks =>
      cases ks with
      | nil => simp [PR.bind, arg, (hk k (by simp)).valid]
      | cons k' ks => simp [PR.bind, lookup, Cmd.noreplyable, Cmd.isStore, other] at this ⊢; simp [this]; tauto
  case gets ks hne hk =>
    have := hall ks hk
    cases ks with
    | nil => exact absurd rfl hne
    | cons k ks => simp [PR.bind, lookup, Cmd.noreplyable, Cmd.isStore, other] at this ⊢; simp [this]; tauto
  case delete k hk =>
    have hn : k ≠ [110, 111, 114, 101, 112, 108, 121] := by rintro rfl; exact hx rfl
    simp [PR.bind, lookup, Cmd.noreplyable, Cmd.isStore, other, hn, arg, hk.valid]
  case incr k t n hk ht =>
    have hn := ht.ne_noreply
    unfold noreplyWord at hn
    simp [PR.bind, lookup, Cmd.noreplyable, Cmd.isStore, other, hn, arg, hk.valid]
  case decr k t n hk ht =>
    have hn := ht.ne_noreply
    unfold noreplyWord at hn
    simp [PR.bind, lookup, Cmd.noreplyable, Cmd.isStore, other, hn, arg, hk.valid]
  case touch k t n hk ht =>
    have hn := ht.ne_noreply
    unfold noreplyWord at hn
    simp [PR.bind, lookup, Cmd.noreplyable, Cmd.isStore, other, hn, arg, hk.valid]
  case deleteN k hk => simp [PR.bind, lookup, Cmd.noreplyable, Cmd.isStore, other, noreplyWord, arg, hk.valid]
  case incrN k t n hk ht => simp [PR.bind, lookup, Cmd.noreplyable, Cmd.isStore, other, noreplyWord, arg, hk.valid]
  case decrN k t n hk ht => simp [PR.bind, lookup, Cmd.noreplyable, Cmd.isStore, other, noreplyWord, arg, hk.valid]
  case touchN k t n hk ht => simp [PR.bind, lookup, Cmd.noreplyable, Cmd.isStore, other, noreplyWord, arg, hk.valid]
  case flushAllD t n ht =>
    have hn := ht.ne_noreply
    unfold noreplyWord at hn
    simp [PR.bind, lookup, Cmd.noreplyable, Cmd.isStore, other, hn, arg]
  case flushAllDN t n ht => simp [PR.bind, lookup, Cmd.noreplyable, Cmd.isStore, other, noreplyWord, arg]
  all_goals simp [PR.bind, lookup, Cmd.noreplyable, Cmd.isStore, other, noreplyWord]

theorem parseMc_unknown {w0 : Bytes} {ws : List Bytes} (h : w0 ∉ commandNames) {data : Bytes} {n : Nat}
    (hd : parseLine data = .got (w0 :: ws, n)) : parseMc data = .got (.bad .error, n) := by
  have h1 : w0 ≠ [103, 101, 116] := by rintro rfl; exact h (by decide)
  have h2 : w0 ≠ [115, 101, 116] := by rintro rfl; exact h (by decide)
  have h3 : lookup w0 = none := by
    simp only [commandNames, List.mem_cons, List.not_mem_nil, or_false, not_or] at h
    simp only [lookup, h, if_false]
  unfold parseMc
  rw [hd]
  simp [PR.bind, h1, h2, h3]

theorem request_framed {q : Req} {w : Bytes} (h : Request q w) (hx : w ≠ joined [[100, 101, 108, 101, 116, 101], noreplyWord] ++ [13, 10]) :
    Framed parseMc q w := by
  rcases h with ⟨r, f, e, c, h, rfl, rfl⟩ | ⟨ws, as, nr, h, rfl, rfl⟩ | ⟨w0, ws, h, hw, rfl, rfl⟩
  · exact store_framed h
  · have hne : ws ≠ [] := by cases h <;> simp
    have hx' : ¬ DeletesNoreply ws := by rintro rfl; exact hx rfl
    refine ⟨by simp, fun rest => ?_, fun p hp hpn _ => ?_⟩
    · exact parseMc_line h hx' (parseLine_joined hne h.word rest)
    · unfold parseMc
      rw [parseLine_cut h.word hp hpn]
      rfl
  · refine ⟨by simp, fun rest => ?_, fun p hp hpn _ => ?_⟩
    · exact parseMc_unknown h (parseLine_joined (by simp) hw rest)
    · unfold parseMc
      rw [parseLine_cut hw hp hpn]
      rfl

/-- **C58** (`_partial`: on a connection already known to speak memcache, and without `delete noreply`).  Pipelined well-formed requests in
any chunks: exactly the complete ones have been executed, with exactly their arguments, in order; lines with an unknown command are
answered "ERROR" and skipped. -/
theorem mc_chunking_partial {σ : Type} (exec : Exec Req σ) (onErr : σ → σ) {qs : List Req} {ws : List Bytes}
    (h : List.Forall₂ Request qs ws) (hx : ∀ w ∈ ws, w ≠ joined [[100, 101, 108, 101, 116, 101], noreplyWord] ++ [13, 10])
    (chunks : List Bytes) (hp : chunks.flatten <+: ws.flatten) (st : σ) (others : Proto → Bytes → PR (Req × Nat)) :
    ∃ c k tail, feed (fun p => if p = .memcache then parseMc else others p) exec onErr ⟨[], .memcache, false, st⟩ chunks = .got c ∧
      Received ws chunks.flatten k tail ∧ (c.st, c.closed) = runAll exec (qs.take k) st ∧ (c.closed = false → c.packet = tail) := by
  refine stream_chunking (p := .memcache) (by simp) _ exec onErr ?_ chunks hp st .memcache (Or.inl rfl)
  clear hp
  induction h with
  | nil => exact .nil
  | @cons q w qs ws h1 _ ih =>
    exact .cons (by simpa using request_framed h1 (hx w (by simp))) (ih fun x hxm => hx x (by simp [hxm]))

/-- **C58, negation.**  The key `noreply` is valid, but a request to delete it is answered with an error. -/
theorem delete_noreply_refused : Key noreplyWord ∧
    Request (.cmd [[100, 101, 108], noreplyWord] false) (joined [[100, 101, 108, 101, 116, 101], noreplyWord] ++ [13, 10]) ∧
    parseMc (joined [[100, 101, 108, 101, 116, 101], noreplyWord] ++ [13, 10]) = .got (.bad .error, 16) := by
  have hk : Key noreplyWord := by unfold Key noreplyWord; decide
  refine ⟨hk, Or.inr (Or.inl ⟨_, _, _, .delete hk, rfl, rfl⟩), by decide +kernel⟩

/-- **C58, negation.**  A request that arrives in two chunks on a new connection is refused and the connection closed; in one chunk it is
executed. -/
theorem split_mc_rejected {σ : Type} (exec : Exec Req σ) (onErr : σ → σ) (st : σ) (others : Proto → Bytes → PR (Req × Nat)) :
    Request (.cmd [[102, 108, 117, 115, 104, 97, 108, 108]] false) [102, 108, 117, 115, 104, 95, 97, 108, 108, 13, 10] ∧
      (∃ c, feed (fun p => if p = .memcache then parseMc else others p) exec onErr (newConn st)
        [[102, 108, 117, 115, 104, 95, 97, 108, 108, 13, 10]] = .got c ∧
        c.st = (exec (.cmd [[102, 108, 117, 115, 104, 97, 108, 108]] false) st).1) ∧
      (∃ c, feed (fun p => if p = .memcache then parseMc else others p) exec onErr (newConn st)
        [[102, 108, 117, 115, 104], [95, 97, 108, 108, 13, 10]] = .got c ∧ c.st = onErr st ∧ c.closed = true) := by
  refine ⟨Or.inr (Or.inl ⟨_, _, _, .flushAll, rfl, rfl⟩), ?_, ?_⟩
  · have hs : sniff [102, 108, 117, 115, 104, 95, 97, 108, 108, 13, 10] = .got (some .memcache) := by decide +kernel
    have hp : parseMc [102, 108, 117, 115, 104, 95, 97, 108, 108, 13, 10] =
        .got (.cmd [[102, 108, 117, 115, 104, 97, 108, 108]] false, 11) := by decide +kernel
    unfold feed evdata newConn
    simp only [Bool.false_eq_true, if_false, List.nil_append, if_true]
    rw [hs]
    simp only [PR.bind, if_true, List.length_cons, List.length_nil]
    rw [drain]
    simp only [hp]
    rcases hx : exec (.cmd [[102, 108, 117, 115, 104, 97, 108, 108]] false) st with ⟨st', cl⟩
    cases cl <;> simp [drain, feed]
  · have hs : sniff [102, 108, 117, 115, 104] = .got none := by decide +kernel
    unfold feed evdata newConn
    simp only [Bool.false_eq_true, if_false, List.nil_append, if_true]
    rw [hs]
    simp [PR.bind, feed, evdata]

/-! ### Refused values -/

/-- **C59, negation.**  A value that is too large is refused, and then its contents are executed: after `set k 0 0 536870913` a value that
starts with a line `flush_all` empties the cache. -/
theorem refused_value_is_executed (rest : Bytes) :
    ∃ n, parseMc (joined [[115, 101, 116], [107], [48], [48], [53, 51, 54, 56, 55, 48, 57, 49, 51]] ++ [13, 10] ++
          ([102, 108, 117, 115, 104, 95, 97, 108, 108, 13, 10] ++ rest)) = .got (.bad .format, n) ∧
      NatText [53, 51, 54, 56, 55, 48, 57, 49, 51] 536870913 ∧
      parseMc ((joined [[115, 101, 116], [107], [48], [48], [53, 51, 54, 56, 55, 48, 57, 49, 51]] ++ [13, 10] ++
          ([102, 108, 117, 115, 104, 95, 97, 108, 108, 13, 10] ++ rest)).drop n) =
        .got (.cmd [[102, 108, 117, 115, 104, 97, 108, 108]] false, 11) := by
  have hword : ∀ w ∈ [[115, 101, 116], [107], [48], [48], [53, 51, 54, 56, 55, 48, 57, 49, (51 : UInt8)]], Word w := by
    unfold Word; decide
  refine ⟨(joined [[115, 101, 116], [107], [48], [48], [53, 51, 54, 56, 55, 48, 57, 49, 51]] ++ [13, 10]).length, ?_, ?_, ?_⟩
  · unfold parseMc
    rw [parseLine_joined (by simp) hword]
    simp [PR.bind, arg, setFive]
    have h1 : validKey [107] = true := by decide
    have h2 : parseI64 [53, 51, 54, 56, 55, 48, 57, 49, 51] = some 536870913 := by decide +kernel
    simp [h1, h2, maxArgSz]
  · unfold NatText; decide
  · rw [List.drop_left]
    have := (request_framed (q := .cmd [[102, 108, 117, 115, 104, 97, 108, 108]] false)
      (Or.inr (Or.inl ⟨_, _, _, .flushAll, rfl, rfl⟩)) (by decide)).2.1 rest
    simpa [joined] using this

/-- **C59** (`_partial`: only values within the size limit whose line is accepted).  If the two bytes behind the value are not CR LF the
request is refused and the announced number of bytes is skipped. -/
theorem bad_chunk_skips_value_partial {r : Store} {f : Nat} {e : Int} {c : Nat} (h : r.Ok f e c) (b1 b2 : UInt8) (hb : [b1, b2] ≠ [13, 10])
    (rest : Bytes) :
    parseMc (joined r.words ++ [13, 10] ++ (r.data ++ b1 :: b2 :: rest)) =
      .got (.bad .chunk, (joined r.words ++ [13, 10] ++ r.data ++ [b1, b2]).length) := by
  obtain ⟨k, _, hp⟩ := parseMc_store h (parseLine_joined r.words_ne_nil h.word (r.data ++ b1 :: b2 :: rest))
  rw [hp]
  generalize joined r.words ++ [13, 10] = hd
  unfold withValue
  rw [if_neg (by simp), if_pos]
  · simp; omega
  · have h1 : (hd ++ (r.data ++ b1 :: b2 :: rest))[hd.length + r.data.length]? = some b1 := by
      rw [List.getElem?_append_right (by omega), List.getElem?_append_right (by omega)]
      simp
    have h2 : (hd ++ (r.data ++ b1 :: b2 :: rest))[hd.length + r.data.length + 1]? = some b2 := by
      rw [List.getElem?_append_right (by omega), List.getElem?_append_right (by omega)]
      have : hd.length + r.data.length + 1 - hd.length - r.data.length = 1 := by omega
      rw [this]; rfl
    rw [h1, h2]
    by_contra hc
    simp at hc
    exact hb (by rw [hc.1, hc.2])

/-! ### Examples -/

namespace Example

/-- `cas k 7 -1 5 99 noreply`, with CR LF in the data. -/
def req : Store := ⟨.cas, [107], [55], [45, 49], [53], [57, 57], true, [97, 13, 10, 13, 10]⟩

theorem ok : req.Ok 7 (-1) 99 := by
  refine ⟨by unfold Key req; decide, by unfold NatText req; decide, by decide, Or.inr ⟨[49], 1, rfl, by unfold NatText; decide, rfl, by decide⟩,
    by unfold IsI64; decide, by unfold NatText req; decide, by unfold req; decide, by unfold NatText req; decide, by decide⟩

example : req.Ok 7 (-1) 99 := ok
example : req.wire = [99, 97, 115, 32, 107, 32, 55, 32, 45, 49, 32, 53, 32, 57, 57, 32, 110, 111, 114, 101, 112, 108, 121, 13, 10,
    97, 13, 10, 13, 10, 13, 10] := by decide
example : req.command = [[115, 101, 116], [107], [97, 13, 10, 13, 10], [102, 108, 97, 103, 115], [55], [101, 120], [45, 49],
    [99, 97, 115], [57, 57]] := by decide

/-- Hypotheses of `mc_chunking_partial`: that request and `get a b`, cut in the middle of the data. -/
example : List.Forall₂ Request [.cmd req.command true, .cmd [[109, 103, 101, 116], [97], [98]] false]
      [req.wire, [103, 101, 116, 32, 97, 32, 98, 13, 10]] ∧
    (∀ w ∈ [req.wire, [103, 101, 116, 32, 97, 32, 98, 13, 10]],
      w ≠ joined [[100, 101, 108, 101, 116, 101], noreplyWord] ++ [13, 10]) ∧
    [req.wire.take 27, req.wire.drop 27, [103, 101]].flatten <+: [req.wire, [103, 101, 116, 32, 97, 32, 98, 13, 10]].flatten := by
  refine ⟨.cons (Or.inl ⟨req, _, _, _, ok, rfl, rfl⟩) (.cons (Or.inr (Or.inl ⟨_, _, _, .get (ks := [[97], [98]]) (by simp) ?_, rfl, rfl⟩)) .nil),
    by decide, by decide⟩
  unfold Key; decide

/-- Hypotheses of `bad_chunk_skips_value_partial`. -/
example : req.Ok 7 (-1) 99 ∧ ([13, 13] : Bytes) ≠ [13, 10] := ⟨ok, by decide⟩

end Example

end Verif.Mc
