import Mathlib.Tactic.Common
import Verif.Main.Memlimit
import Verif.Main.Options

/-!
C128: the short options, as the help page and the comments of the program say (`/repo/src/main.c:505-510,528,543-545`).
-/

namespace Verif.Main

open Verif

/-- A short option for a long one: the next argument is the value of both, `/repo/src/main.c:543`. -/
def synonyms : List (Bytes × Bytes) := [([45, 116], [45, 45, 116, 104, 114, 101, 97, 100, 115]) /- -t --threads -/]

/-- Options with one letter, and what they are about; the next argument is the value, `/repo/src/main.c:505-507`. -/
def letters : List (Bytes × Var) := [([45, 104], .host) /- -h -/, ([45, 112], .port) /- -p -/, ([45, 115], .unixsock) /- -s -/]

/-- Options that are not public, with a value, `/repo/src/main.c:528`. -/
def hidden : List (Bytes × Var) := [([45, 45, 115, 101, 101, 100], .seed) /- --seed -/]

/-- **C128.**  Wherever they are on the command line, and whatever comes before and after: `-t n` is `--threads n`; `-M` is `--evict no`; `-h`, `-p`, `-s` and `--seed` set the
host, the port, the socket and the seed to the next argument; and `-v`, `-vv` and `-vvv` set the level to 1, 2 and 3. -/
theorem short_options (rest : List Bytes) (t : Bytes) (st : List (Var × Bytes)) :
    (∀ p ∈ synonyms, parseArgs (p.1 :: t :: rest) st = parseArgs (p.2 :: t :: rest) st) ∧
    parseArgs ([45, 77] :: rest) st = parseArgs ([45, 45, 101, 118, 105, 99, 116] :: [110, 111] :: rest) st ∧
    (∀ p ∈ letters ++ hidden, parseArgs (p.1 :: t :: rest) st = parseArgs rest ((p.2, t) :: st)) ∧
    ∀ k ∈ [1, 2, 3], parseArgs ((45 :: List.replicate k 118) :: rest) st = parseArgs rest ((.verb, [UInt8.ofNat (48 + k)]) :: st) := by
  have next : ∀ {a : Bytes} {v : Var}, (a ≠ [45, 45, 104, 101, 108, 112] ∧ a ≠ [45, 45, 118, 101, 114, 115, 105, 111, 110]) ∧ flagAt flags a = .next v →
      ∀ {t rest st}, parseArgs (a :: t :: rest) st = parseArgs rest ((v, t) :: st) := by
    rintro a v ⟨⟨h1, h2⟩, h3⟩ t rest st
    rw [parseArgs, if_neg (by rintro (h | h); exact h1 h; exact h2 h), h3]
  have sets : ∀ {a : Bytes} {v : Var} {x : Bytes}, (a ≠ [45, 45, 104, 101, 108, 112] ∧ a ≠ [45, 45, 118, 101, 114, 115, 105, 111, 110]) ∧ flagAt flags a = .sets v x →
      ∀ {rest st}, parseArgs (a :: rest) st = parseArgs rest ((v, x) :: st) := by
    rintro a v x ⟨⟨h1, h2⟩, h3⟩ rest st
    rw [parseArgs, if_neg (by rintro (h | h); exact h1 h; exact h2 h), h3]
  refine ⟨?_, ?_, ?_, ?_⟩
  · intro p hp
    simp only [synonyms, List.mem_singleton] at hp
    subst hp
    rw [next (v := .threads) (by decide), next (v := .threads) (by decide)]
  · rw [sets (v := .evict) (x := [110, 111]) (by decide), next (v := .evict) (by decide)]
  · intro p hp
    have : ∀ p ∈ letters ++ hidden, (p.1 ≠ [45, 45, 104, 101, 108, 112] ∧ p.1 ≠ [45, 45, 118, 101, 114, 115, 105, 111, 110]) ∧ flagAt flags p.1 = .next p.2 := by decide
    exact next (this p hp)
  · intro k hk
    have : ∀ k ∈ [1, 2, 3], ((45 :: List.replicate k 118 : Bytes) ≠ [45, 45, 104, 101, 108, 112] ∧ (45 :: List.replicate k 118 : Bytes) ≠ [45, 45, 118, 101, 114, 115, 105, 111, 110]) ∧
        flagAt flags (45 :: List.replicate k 118) = .sets .verb [UInt8.ofNat (48 + k)] := by decide
    exact sets (this k hk)

/-- `-v -M -t 3 --threads 5`: the threads are those given last, and keys are not to be evicted. -/
example : (parseArgs [[45, 118], [45, 77], [45, 116], [51], [45, 45, 116, 104, 114, 101, 97, 100, 115], [53]] []).map (fun st => [value st .verb, value st .evict, value st .threads]) =
    some [[49], [110, 111], [53]] := by decide

theorem lookup_given {gs : List Given} {v : Var} (h : ∀ g ∈ gs, g.var ≠ v) (r : List (Var × Bytes)) :
    ((gs.map fun g => (g.var, g.text)).reverse ++ r).lookup v = r.lookup v := by
  rw [List.lookup_append]
  have : ((gs.map fun g => (g.var, g.text)).reverse).lookup v = none := by
    rw [List.lookup_eq_none_iff]
    intro p hp
    simp only [List.mem_reverse, List.mem_map] at hp
    obtain ⟨g, hg, rfl⟩ := hp
    have := h g hg
    rw [bne_iff_ne]
    exact fun e => this e.symm
  rw [this]; rfl

/-- **C128, `-m` is the exception.**  After `-m n` and any public options, the text of the memory limit is `n` and `M`: a later `--maxmemory` has no effect.  For a whole
number this is a limit of exactly that many megabytes.  Without `-m` the last `--maxmemory` is used.
Missing: that the last of `-m` and `--maxmemory` is used, which is false (`later_maxmemory_ignored`). -/
theorem m_option_partial (gs : List Given) (hg : ∀ g ∈ gs, (g.name, g.var) ∈ options) :
    (∀ t, ∃ st, parseArgs ([45, 109] :: t :: gs.flatMap Given.words) [] = some st ∧ settle st .maxmemory = t ++ [77] ∧
      ∀ {fl : Rat → Rat} {strtod : Bytes → Option (Rat × Bytes)}, Doubles fl → Reads fl strtod → ∀ sysmem, t ≠ [] → (∀ b ∈ t, Digit b) → 0 < num t → num t < 2 ^ 44 →
        calcMemlimit fl strtod sysmem (settle st .maxmemory) = .bytes (num t * 2 ^ 20)) ∧
    ∀ t, Last gs .maxmemory t → ∃ st, parseArgs (gs.flatMap Given.words) [] = some st ∧ settle st .maxmemory = t := by
  have hmb : ∀ g ∈ gs, g.var ≠ .maxmemorymb := by
    intro g h
    have : ∀ p ∈ options, p.2 ≠ .maxmemorymb := by decide
    exact this _ (hg g h)
  refine ⟨?_, ?_⟩
  · intro t
    have h1 : parseArgs ([45, 109] :: t :: gs.flatMap Given.words) [] = some ((gs.map fun g => (g.var, g.text)).reverse ++ [(.maxmemorymb, t)]) := by
      rw [parseArgs, if_neg (by decide), show flagAt flags [45, 109] = .next .maxmemorymb by decide]
      exact parse_given gs hg _
    have h2 : settle ((gs.map fun g => (g.var, g.text)).reverse ++ [(.maxmemorymb, t)]) .maxmemory = t ++ [77] := by
      unfold settle
      rw [if_pos rfl, lookup_given hmb]
      rfl
    refine ⟨_, h1, h2, ?_⟩
    intro fl strtod hf hr sysmem h0 hd hpos hlt
    rw [h2]
    have := maxmemory_exact hf hr sysmem (sp := []) (ds := t) (sp' := []) (u := [77]) (n := 2 ^ 20) (by simp [Blank]) h0 hd (by simp [Blank])
      ⟨[109], by decide, .cons (.inr ⟨by decide, by decide, by decide⟩) .nil⟩ hpos (by omega) (by omega)
    simpa using this
  · intro t ht
    obtain ⟨st, h1, h2, _⟩ := last_option_wins gs hg
    refine ⟨st, h1, ?_⟩
    unfold settle
    rw [if_pos rfl]
    have e : st.lookup .maxmemorymb = none := by
      rw [parse_given gs hg [], Option.some.injEq] at h1
      rw [← h1, lookup_given hmb]; rfl
    rw [e]
    exact h2 _ _ ht

/-- `-m 10 --maxmemory 1G` is a limit of 10 megabytes, and so is `--maxmemory 1G -m 10`; `--maxmemory 1G` alone is what it says. -/
example : [[[45, 109], [49, 48], [45, 45, 109, 97, 120, 109, 101, 109, 111, 114, 121], [49, 71]], [[45, 45, 109, 97, 120, 109, 101, 109, 111, 114, 121], [49, 71], [45, 109], [49, 48]],
      [[45, 45, 109, 97, 120, 109, 101, 109, 111, 114, 121], [49, 71]]].map (fun args => (parseArgs args []).map (settle · .maxmemory)) =
    [some [49, 48, 77], some [49, 48, 77], some [49, 71]] ∧ calcMemlimit id Example.reader 1000 [49, 48, 77] = .bytes (10 * 2 ^ 20) := by
  refine ⟨by decide, ?_⟩
  obtain ⟨st, _, h2, h3⟩ := (m_option_partial [] (by simp)).1 [49, 48]
  have := h3 Example.doubles_id Example.reads_reader 1000 (by decide) (by unfold Digit; decide) (by decide) (by decide)
  rw [h2] at this
  exact this

/-- **C128, negation: the last one does not count.**  With `-m 10 --maxmemory 1G` the limit is 10 megabytes, with `--maxmemory 10M --maxmemory 1G` it is 1024. -/
theorem later_maxmemory_ignored :
    [[[45, 109], [49, 48], [45, 45, 109, 97, 120, 109, 101, 109, 111, 114, 121], [49, 71]],
      [[45, 45, 109, 97, 120, 109, 101, 109, 111, 114, 121], [49, 48, 77], [45, 45, 109, 97, 120, 109, 101, 109, 111, 114, 121], [49, 71]]].map
      (fun args => (parseArgs args []).map fun st => calcMemlimit id Example.reader 1000 (settle st .maxmemory)) = [some (.bytes (10 * 2 ^ 20)), some (.bytes (2 ^ 30))] := by
  have h : ∀ (ds u : Bytes) (n : Nat), ds ≠ [] → (∀ b ∈ ds, Digit b) → Unit u n → 0 < num ds → num ds < 2 ^ 53 → num ds * n < 2 ^ 64 →
      calcMemlimit id Example.reader 1000 (ds ++ u) = .bytes (num ds * n) := by
    intro ds u n h0 hd hu hpos hlt hfit
    have := maxmemory_exact Example.doubles_id Example.reads_reader 1000 (sp := []) (sp' := []) (by simp [Blank]) h0 hd (by simp [Blank]) hu hpos hlt hfit
    simp only [List.nil_append] at this
    exact this
  have h1 := h [49, 48] [77] (2 ^ 20) (by decide) (by unfold Digit; decide) ⟨[109], by decide, .cons (.inr ⟨by decide, by decide, by decide⟩) .nil⟩ (by decide) (by decide) (by decide)
  have h2 := h [49] [71] (2 ^ 30) (by decide) (by unfold Digit; decide) ⟨[103], by decide, .cons (.inr ⟨by decide, by decide, by decide⟩) .nil⟩ (by decide) (by decide) (by decide)
  have e : [[[45, 109], [49, 48], [45, 45, 109, 97, 120, 109, 101, 109, 111, 114, 121], [49, 71]],
      [[45, 45, 109, 97, 120, 109, 101, 109, 111, 114, 121], [49, 48, 77], [45, 45, 109, 97, 120, 109, 101, 109, 111, 114, 121], [49, 71]]].map
      (fun args => (parseArgs args []).map fun st => settle st .maxmemory) = [some ([49, 48] ++ [77]), some ([49] ++ [71])] := by decide
  simp only [List.map_cons, List.map_nil, List.cons.injEq, and_true, Option.map_eq_some_iff] at e ⊢
  obtain ⟨⟨s1, p1, q1⟩, ⟨s2, p2, q2⟩⟩ := e
  refine ⟨⟨s1, p1, ?_⟩, ⟨s2, p2, ?_⟩⟩
  · rw [q1, h1]; rfl
  · rw [q2, h2]; rfl

end Verif.Main
