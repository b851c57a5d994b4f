import Mathlib.Tactic.Common
import Mathlib.Data.List.Forall2
import Verif.Resp.Model

/-!
Streams of requests and the chunks in which they arrive, for any protocol.
-/

namespace Verif.Resp

/-! ### Specification -/

/-- Requests handled one after another until one closes the connection. -/
def runAll {α σ : Type} (exec : Exec α σ) : List α → σ → σ × Bool
  | [], s => (s, false)
  | c :: cs, s => if (exec c s).2 then ((exec c s).1, true) else runAll exec cs (exec c s).1

/-- Of the stream `ws` the bytes `data` have been received: the first `k` commands, and of the next one the part `tail`. -/
def Received (ws : List Bytes) (data : Bytes) (k : Nat) (tail : Bytes) : Prop :=
  data = (ws.take k).flatten ++ tail ∧ k ≤ ws.length ∧
    ((k = ws.length ∧ tail = []) ∨ ∃ w, ws[k]? = some w ∧ tail <+: w ∧ tail ≠ w)

theorem received_exists {ws : List Bytes} {data : Bytes} (h : data <+: ws.flatten) : ∃ k tail, Received ws data k tail := by
  induction ws generalizing data with
  | nil =>
    have : data = [] := by simpa using h
    subst this
    exact ⟨0, [], by simp [Received]⟩
  | cons w ws ih =>
    rw [List.flatten_cons] at h
    by_cases hl : w.length ≤ data.length
    · obtain ⟨d, hd⟩ := List.prefix_of_prefix_length_le (List.prefix_append w ws.flatten) h hl
      subst hd
      have hd' : d <+: ws.flatten := (List.prefix_append_right_inj w).1 h
      obtain ⟨k, tail, h1, h2, h3⟩ := ih hd'
      refine ⟨k + 1, tail, ?_, by simpa using h2, ?_⟩
      · rw [List.take_succ_cons, List.flatten_cons, List.append_assoc, ← h1]
      · rcases h3 with ⟨h3, h4⟩ | ⟨w', h3, h4⟩
        · exact Or.inl ⟨by simp [h3], h4⟩
        · exact Or.inr ⟨w', by simpa using h3, h4⟩
    · refine ⟨0, data, by simp, by simp, Or.inr ⟨w, rfl, ?_, ?_⟩⟩
      · exact List.prefix_of_prefix_length_le h (List.prefix_append w ws.flatten) (by omega)
      · rintro rfl; omega

/-- The parser recognises the request `a` as written in `w`: followed by anything it is returned and `w` is used up, and of a part of it
nothing is done. -/
def Framed {α : Type} (parse : Bytes → PR (α × Nat)) (a : α) (w : Bytes) : Prop :=
  w ≠ [] ∧ (∀ rest, parse (w ++ rest) = .got (a, w.length)) ∧ ∀ p, p <+: w → p ≠ w → p ≠ [] → parse p = .more

/-! ### Proofs -/

theorem drain_stream {α σ : Type} (parse : Bytes → PR (α × Nat)) (exec : Exec α σ) (onErr : σ → σ) {cs : List α} {ws : List Bytes}
    (h : List.Forall₂ (Framed parse) cs ws)
    {data : Bytes} {k : Nat} {tail : Bytes} (hr : Received ws data k tail) (fuel : Nat) (hf : data.length ≤ fuel) (st : σ) :
    ∃ rest, drain parse exec onErr fuel data st = .got ((runAll exec (cs.take k) st).1, (runAll exec (cs.take k) st).2, rest) ∧
      ((runAll exec (cs.take k) st).2 = false → rest = tail) := by
  induction h generalizing data k fuel st with
  | nil =>
    obtain ⟨h1, h2, h3⟩ := hr
    obtain rfl : k = 0 := by simpa using h2
    have htail : tail = [] := by
      rcases h3 with ⟨_, h3⟩ | ⟨w, h3, _⟩
      · exact h3
      · simp at h3
    subst htail
    have : data = [] := by simpa using h1
    subst this
    refine ⟨[], ?_, fun _ => rfl⟩
    cases fuel <;> simp [drain, runAll]
  | @cons c w cs ws hc _ ih =>
    obtain ⟨h1, h2, h3⟩ := hr
    obtain ⟨hw, hparse, hcut⟩ := hc
    cases k with
    | zero =>
      have htail : tail <+: w ∧ tail ≠ w := by
        rcases h3 with ⟨h3, _⟩ | ⟨w', h3, h4⟩
        · simp at h3
        · obtain rfl : w = w' := by simpa using h3
          exact h4
      have hd : data = tail := by simpa using h1
      subst hd
      refine ⟨data, ?_, fun _ => rfl⟩
      cases fuel with
      | zero => simp [drain, runAll]
      | succ fuel =>
        by_cases hnil : data = []
        · subst hnil; simp [drain, runAll]
        · rw [drain, if_neg hnil, hcut _ htail.1 htail.2 hnil]
          simp [runAll]
    | succ k =>
      have hd : data = w ++ ((ws.take k).flatten ++ tail) := by
        rw [h1, List.take_succ_cons, List.flatten_cons, List.append_assoc]
      have hrec : Received ws ((ws.take k).flatten ++ tail) k tail := by
        refine ⟨rfl, by simpa using h2, ?_⟩
        rcases h3 with ⟨h3, h4⟩ | ⟨w', h3, h4⟩
        · exact Or.inl ⟨by simpa using h3, h4⟩
        · exact Or.inr ⟨w', by simpa using h3, h4⟩
      have hwl : 0 < w.length := List.length_pos_iff.2 hw
      have hdl : data.length = w.length + ((ws.take k).flatten ++ tail).length := by rw [hd, List.length_append]
      cases fuel with
      | zero => omega
      | succ fuel =>
        have hnil : data ≠ [] := by intro h0; rw [h0] at hdl; simp at hdl; omega
        rw [drain, if_neg hnil]
        have hp : parse data = .got (c, w.length) := by rw [hd]; exact hparse _
        have hdrop : data.drop w.length = (ws.take k).flatten ++ tail := by rw [hd]; exact List.drop_left
        rw [hp]
        simp only [hdrop]
        rw [List.take_succ_cons, runAll]
        by_cases hcl : (exec c st).2 = true
        · simp only [hcl, if_true]
          exact ⟨_, rfl, by simp⟩
        · simp only [hcl, if_false, Bool.false_eq_true]
          exact ih hrec fuel (by omega) _

theorem runAll_append {α σ : Type} (exec : Exec α σ) (a b : List α) (s : σ) :
    runAll exec (a ++ b) s = if (runAll exec a s).2 then runAll exec a s else runAll exec b (runAll exec a s).1 := by
  induction a generalizing s with
  | nil => simp [runAll]
  | cons c a ih =>
    rw [List.cons_append, runAll, runAll]
    by_cases hx : (exec c s).2 = true
    · simp [hx]
    · simp only [hx, if_false, Bool.false_eq_true]; exact ih _

theorem received_split {ws : List Bytes} {a : Bytes} {k : Nat} {t : Bytes} (h : Received ws a k t) {b : Bytes}
    (hb : a ++ b <+: ws.flatten) : t ++ b <+: (ws.drop k).flatten ∧
      ∀ k' t', Received (ws.drop k) (t ++ b) k' t' → Received ws (a ++ b) (k + k') t' := by
  obtain ⟨h1, h2, h3⟩ := h
  have hfl : ws.flatten = (ws.take k).flatten ++ (ws.drop k).flatten := by rw [← List.flatten_append, List.take_append_drop]
  refine ⟨?_, ?_⟩
  · rw [h1, hfl, List.append_assoc] at hb
    exact (List.prefix_append_right_inj _).1 hb
  · rintro k' t' ⟨g1, g2, g3⟩
    have hdl : (ws.drop k).length = ws.length - k := List.length_drop
    refine ⟨?_, by omega, ?_⟩
    · rw [h1, List.append_assoc, g1, ← List.append_assoc, ← List.flatten_append, List.take_add]
    · rcases g3 with ⟨g3, g4⟩ | ⟨w, g3, g4⟩
      · exact Or.inl ⟨by omega, g4⟩
      · exact Or.inr ⟨w, by rw [List.getElem?_drop] at g3; exact g3, g4⟩

/-- The protocol of the connection is known to be `p`, or will be recognised from any first part of the stream. -/
def Knows (p : Proto) (stream : Bytes) (c : Proto) : Prop :=
  c = p ∨ (c = .none ∧ ∀ d, d <+: stream → d ≠ [] → sniff d = .got (some p))

/-- What a connection looks like after having received `data`. -/
def Now {α σ : Type} (p : Proto) (exec : Exec α σ) (cs : List α) (ws : List Bytes) (data : Bytes) (st : σ) (c : Conn σ) : Prop :=
  ∃ k tail, Received ws data k tail ∧ c.st = (runAll exec (cs.take k) st).1 ∧ c.closed = (runAll exec (cs.take k) st).2 ∧
    (c.closed = false → c.packet = tail ∧ (c.proto = p ∨ (data = [] ∧ Knows p ws.flatten c.proto)))

theorem evdata_now {α σ : Type} {p : Proto} (hpn : p ≠ .none) (parse : Proto → Bytes → PR (α × Nat)) (exec : Exec α σ) (onErr : σ → σ)
    {cs : List α} {ws : List Bytes} (h : List.Forall₂ (Framed (parse p)) cs ws)
    {data chunk : Bytes} {st : σ} {c : Conn σ} (hn : Now p exec cs ws data st c) (hp : data ++ chunk <+: ws.flatten) :
    ∃ c', evdata parse exec onErr c chunk = .got c' ∧ Now p exec cs ws (data ++ chunk) st c' := by
  obtain ⟨k, tail, hr, h1, h2, h3⟩ := hn
  obtain ⟨hs1, hs2⟩ := received_split hr hp
  obtain ⟨k', t', hr'⟩ := received_exists hs1
  have hr2 := hs2 k' t' hr'
  have htake : cs.take (k + k') = cs.take k ++ (cs.drop k).take k' := List.take_add
  unfold evdata
  by_cases hcl : c.closed = true
  · rw [if_pos hcl]
    refine ⟨c, rfl, k + k', t', hr2, ?_, ?_, ?_⟩
    · rw [htake, runAll_append, if_pos (by rw [← h2, hcl])]; exact h1
    · rw [htake, runAll_append, if_pos (by rw [← h2, hcl])]; exact h2
    · intro hh; rw [hcl] at hh; simp at hh
  · have hcf : c.closed = false := by simpa using hcl
    obtain ⟨hpk, hproto⟩ := h3 hcf
    rw [if_neg hcl, hpk]
    have hrun0 : (runAll exec (cs.take k) st).2 = false := by rw [← h2, hcf]
    by_cases hnil : tail ++ chunk = []
    · simp only [if_pos hnil]
      obtain ⟨rfl, rfl⟩ : tail = [] ∧ chunk = [] := by simpa using hnil
      exact ⟨c, rfl, k, [], by simpa using hr, h1, h2, by simpa using h3⟩
    · simp only [if_neg hnil]
      have hdrop : List.Forall₂ (Framed (parse p)) (cs.drop k) (ws.drop k) := List.forall₂_drop k h
      obtain ⟨rest, hd, hrest⟩ := drain_stream (parse p) exec onErr hdrop hr' (tail ++ chunk).length (Nat.le_refl _) c.st
      have hfinal : Now p exec cs ws (data ++ chunk) st ⟨rest, p, (runAll exec ((cs.drop k).take k') c.st).2,
          (runAll exec ((cs.drop k).take k') c.st).1⟩ := by
        refine ⟨k + k', t', hr2, ?_, ?_, ?_⟩
        · rw [htake, runAll_append, if_neg (by rw [hrun0]; simp), ← h1]
        · rw [htake, runAll_append, if_neg (by rw [hrun0]; simp), ← h1]
        · intro hh
          exact ⟨hrest hh, Or.inl rfl⟩
      refine ⟨_, ?_, hfinal⟩
      have hgo : c.proto = p → (if c.proto = .none then (sniff (tail ++ chunk)).bind fun
          | some p => (drain (parse p) exec onErr (tail ++ chunk).length (tail ++ chunk) c.st).bind fun (st, closed, rest) =>
            PR.got (⟨rest, p, closed, st⟩ : Conn σ)
          | none => .got ⟨tail ++ chunk, .none, true, onErr c.st⟩
          else (drain (parse c.proto) exec onErr (tail ++ chunk).length (tail ++ chunk) c.st).bind fun (st, closed, rest) =>
            .got ⟨rest, c.proto, closed, st⟩) =
          .got ⟨rest, p, (runAll exec ((cs.drop k).take k') c.st).2, (runAll exec ((cs.drop k).take k') c.st).1⟩ := by
        intro he
        rw [he, if_neg hpn, hd]
        rfl
      rcases hproto with hproto | ⟨hdata, hproto | ⟨hproto, hsn⟩⟩
      · exact hgo hproto
      · exact hgo hproto
      · subst hdata
        have hk : tail = [] := by
          have := hr.1.symm
          rw [List.append_eq_nil_iff] at this
          exact this.2
        subst hk
        rw [if_pos hproto, hsn _ (by simpa using hp) hnil]
        simp only [PR.bind]
        rw [hd]

/-- Chunks in any protocol that frames its requests: exactly the requests that have arrived completely have been handled, in order and up to
the first that closes the connection, and nothing was rejected. -/
theorem stream_chunking {α σ : Type} {p : Proto} (hpn : p ≠ .none) (parse : Proto → Bytes → PR (α × Nat)) (exec : Exec α σ)
    (onErr : σ → σ) {cs : List α} {ws : List Bytes} (h : List.Forall₂ (Framed (parse p)) cs ws)
    (chunks : List Bytes) (hp : chunks.flatten <+: ws.flatten) (st : σ) (c0 : Proto) (hk : Knows p ws.flatten c0) :
    ∃ c k tail, feed parse exec onErr ⟨[], c0, false, st⟩ chunks = .got c ∧ Received ws chunks.flatten k tail ∧
      (c.st, c.closed) = runAll exec (cs.take k) st ∧ (c.closed = false → c.packet = tail) := by
  have key : ∀ (chunks : List Bytes) (data : Bytes) (c : Conn σ), Now p exec cs ws data st c → data ++ chunks.flatten <+: ws.flatten →
      ∃ c', feed parse exec onErr c chunks = .got c' ∧ Now p exec cs ws (data ++ chunks.flatten) st c' := by
    intro chunks
    induction chunks with
    | nil => intro data c hn _; exact ⟨c, rfl, by simpa using hn⟩
    | cons chunk chunks ih =>
      intro data c hn hp
      rw [List.flatten_cons, ← List.append_assoc] at hp ⊢
      have hp1 : data ++ chunk <+: ws.flatten := (List.prefix_append _ _).trans hp
      obtain ⟨c1, he, hn1⟩ := evdata_now hpn parse exec onErr h hn hp1
      obtain ⟨c2, hf, hn2⟩ := ih _ c1 hn1 hp
      refine ⟨c2, ?_, hn2⟩
      rw [feed, he]
      exact hf
  have h0 : Now p exec cs ws [] st ⟨[], c0, false, st⟩ := by
    obtain ⟨k, tail, hr⟩ := received_exists (ws := ws) (data := []) (List.nil_prefix)
    have hk : k = 0 ∧ tail = [] := by
      obtain ⟨h1, h2, h3⟩ := hr
      have h1 := h1.symm
      rw [List.append_eq_nil_iff] at h1
      refine ⟨?_, h1.2⟩
      cases k with
      | zero => rfl
      | succ k =>
        cases h with
        | nil => simp at h2
        | cons hc _ =>
          have := h1.1
          rw [List.take_succ_cons, List.flatten_cons, List.append_eq_nil_iff] at this
          exact absurd this.1 hc.1
    obtain ⟨rfl, rfl⟩ := hk
    exact ⟨0, [], hr, rfl, rfl, fun _ => ⟨rfl, Or.inr ⟨rfl, by assumption⟩⟩⟩
  obtain ⟨c, hf, k, tail, hr, h1, h2, h3⟩ := key chunks [] _ h0 (by simpa using hp)
  refine ⟨c, k, tail, hf, by simpa using hr, ?_, fun hh => (h3 hh).1⟩
  rw [h1, h2]

end Verif.Resp
