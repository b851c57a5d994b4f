import Mathlib.Tactic.Common

/-!
C64: the table of the connections of a worker thread, `/repo/src/net.c:355-422`.

A connection is its number and an identity; each bucket is a list (the chain through `next`).
-/

namespace Verif.Net.Cmap

/-- A connection: the number of its socket, and which one it is. -/
structure Conn where
  fd : Nat
  id : Nat
deriving DecidableEq, Repr

/-- `struct cmap`, `/repo/src/net.c:360-364`. -/
structure Map where
  buckets : List (List Conn)
  len : Nat
deriving DecidableEq, Repr

/-- The bucket of a number, `/repo/src/net.c:391, 395`; `hash` stands for `hashfd` cut to 32 bits. -/
def idx (hash : Nat → Nat) (n fd : Nat) : Nat := hash fd % n

/-- The last lines of `cmap_insert`, `/repo/src/net.c:395-398`. -/
def link (hash : Nat → Nat) (m : Map) (c : Conn) : Map :=
  let i := idx hash m.buckets.length c.fd
  ⟨m.buckets.set i (c :: m.buckets.getD i []), m.len + 1⟩

/-- `cmap_grow`, `/repo/src/net.c:368-386`.  The insertions do not grow the new table: it has twice the buckets, and at most as many
connections are inserted as have been before (`grow_once`). -/
def grow (hash : Nat → Nat) (m : Map) : Map :=
  m.buckets.flatten.foldl (link hash) ⟨List.replicate (m.buckets.length * 2) [], 0⟩

/-- `cmap_insert`, `/repo/src/net.c:390-399`. -/
def insert (hash : Nat → Nat) (m : Map) (c : Conn) : Map :=
  link hash (if m.len ≥ m.buckets.length - m.buckets.length / 4 then grow hash m else m) c

/-- `cmap_get`, `/repo/src/net.c:402-410`. -/
def get (hash : Nat → Nat) (m : Map) (fd : Nat) : Option Conn := (m.buckets.getD (idx hash m.buckets.length fd) []).find? (·.fd = fd)

/-- `cmap_delete`, `/repo/src/net.c:414-430`: the chain is searched for the connection; the counter stays as it is. -/
def delete (hash : Nat → Nat) (m : Map) (c : Conn) : Map :=
  let i := idx hash m.buckets.length c.fd
  { m with buckets := m.buckets.set i ((m.buckets.getD i []).erase c) }

/-- The table of a new thread, `/repo/src/net.c:897-901`. -/
def new : Map := ⟨List.replicate 64 [], 0⟩

/-- Opening and closing of connections. -/
inductive Act where
  | opened (c : Conn)
  | closed (c : Conn)
deriving DecidableEq, Repr

def run (hash : Nat → Nat) : Map → List Act → Map
  | m, [] => m
  | m, .opened c :: l => run hash (insert hash m c) l
  | m, .closed c :: l => run hash (delete hash m c) l

/-! ### Specification -/

/-- The connections that are open after the actions, when `open_` are open before; `none` if a number in use is used again, or a connection
is closed that is not open. -/
def live : List Conn → List Act → Option (List Conn)
  | open_, [] => some open_
  | open_, .opened c :: l => if c.fd ∈ open_.map Conn.fd then none else live (c :: open_) l
  | open_, .closed c :: l => if c ∈ open_ then live (open_.erase c) l else none

/-! ### Proofs -/

/-- The table holds exactly the connections `cs`, each in its bucket. -/
structure Holds (hash : Nat → Nat) (m : Map) (cs : List Conn) : Prop where
  pos : 0 < m.buckets.length
  place : ∀ i b, m.buckets[i]? = some b → ∀ c ∈ b, idx hash m.buckets.length c.fd = i
  mem : List.Perm m.buckets.flatten cs

theorem getD_eq {α : Type} {l : List α} {i : Nat} {d x : α} (h : l[i]? = some x) : l.getD i d = x := by
  rw [List.getD_eq_getElem?_getD, h, Option.getD_some]

theorem idx_lt {hash : Nat → Nat} {n fd : Nat} (h : 0 < n) : idx hash n fd < n := Nat.mod_lt _ h

theorem flatten_set {α : Type} (l : List (List α)) (i : Nat) (b b' : List α) (h : l[i]? = some b) :
    ∃ r, List.Perm l.flatten (b ++ r) ∧ List.Perm (l.set i b').flatten (b' ++ r) := by
  induction l generalizing i with
  | nil => simp at h
  | cons x l ih =>
    cases i with
    | zero =>
      simp only [List.getElem?_cons_zero, Option.some.injEq] at h
      subst h
      exact ⟨l.flatten, by simp, by simp⟩
    | succ i =>
      simp only [List.getElem?_cons_succ] at h
      obtain ⟨r, h1, h2⟩ := ih i h
      refine ⟨x ++ r, ?_, ?_⟩
      · rw [List.flatten_cons]
        refine (h1.append_left x).trans ?_
        rw [← List.append_assoc, ← List.append_assoc]
        exact (List.perm_append_comm).append_right r
      · rw [List.set_cons_succ, List.flatten_cons]
        refine (h2.append_left x).trans ?_
        rw [← List.append_assoc, ← List.append_assoc]
        exact (List.perm_append_comm).append_right r

theorem bucket_some {hash : Nat → Nat} {m : Map} (h : 0 < m.buckets.length) (fd : Nat) :
    ∃ b, m.buckets[idx hash m.buckets.length fd]? = some b :=
  ⟨_, List.getElem?_eq_getElem (idx_lt h)⟩

theorem link_holds {hash : Nat → Nat} {m : Map} {cs : List Conn} (h : Holds hash m cs) (c : Conn) :
    Holds hash (link hash m c) (c :: cs) ∧ (link hash m c).buckets.length = m.buckets.length ∧ (link hash m c).len = m.len + 1 := by
  obtain ⟨b, hb⟩ := bucket_some (hash := hash) h.pos c.fd
  unfold link
  simp only
  rw [getD_eq hb]
  refine ⟨⟨by simpa using h.pos, ?_, ?_⟩, by simp, by simp⟩
  · intro i b' hi x hx
    simp only [List.length_set]
    simp only [List.getElem?_set] at hi
    split at hi
    · rename_i heq
      split at hi
      · simp only [Option.some.injEq] at hi
        subst hi
        simp only [List.mem_cons] at hx
        rcases hx with rfl | hx
        · exact heq
        · rw [← heq]; exact h.place _ b hb x hx
      · simp at hi
    · exact h.place i b' hi x hx
  · obtain ⟨r, h1, h2⟩ := flatten_set m.buckets _ b (c :: b) hb
    refine h2.trans ?_
    rw [List.cons_append]
    exact (h1.symm.trans h.mem).cons c

theorem fold_holds {hash : Nat → Nat} (l : List Conn) {m : Map} {cs : List Conn} (h : Holds hash m cs) :
    Holds hash (l.foldl (link hash) m) (l.reverse ++ cs) ∧ (l.foldl (link hash) m).buckets.length = m.buckets.length ∧
      (l.foldl (link hash) m).len = m.len + l.length := by
  induction l generalizing m cs with
  | nil => exact ⟨by simpa using h, rfl, rfl⟩
  | cons c l ih =>
    obtain ⟨h1, h2, h3⟩ := link_holds h c
    obtain ⟨g1, g2, g3⟩ := ih h1
    refine ⟨?_, by rw [List.foldl_cons, g2, h2], by rw [List.foldl_cons, g3, h3]; simp; omega⟩
    simpa using g1

theorem empty_holds {hash : Nat → Nat} {n : Nat} (h : 0 < n) (k : Nat) : Holds hash ⟨List.replicate n [], k⟩ [] := by
  refine ⟨by simpa using h, ?_, by simp⟩
  intro i b hi c hc
  rw [List.getElem?_replicate] at hi
  split at hi
  · simp only [Option.some.injEq] at hi; subst hi; simp at hc
  · simp at hi

theorem grow_holds {hash : Nat → Nat} {m : Map} {cs : List Conn} (h : Holds hash m cs) :
    Holds hash (grow hash m) cs ∧ (grow hash m).buckets.length = m.buckets.length * 2 ∧ (grow hash m).len = cs.length := by
  obtain ⟨h1, h2, h3⟩ := fold_holds (hash := hash) m.buckets.flatten (empty_holds (hash := hash) (n := m.buckets.length * 2) (by have := h.pos; omega) 0)
  unfold grow
  refine ⟨⟨h1.pos, h1.place, ?_⟩, by rw [h2]; simp, by rw [h3, h.mem.length_eq]; simp⟩
  refine h1.mem.trans ?_
  rw [List.append_nil]
  exact (List.reverse_perm _).trans h.mem

theorem insert_holds {hash : Nat → Nat} {m : Map} {cs : List Conn} (h : Holds hash m cs) (c : Conn) : Holds hash (insert hash m c) (c :: cs) := by
  unfold insert
  split
  · exact (link_holds (grow_holds h).1 c).1
  · exact (link_holds h c).1

theorem delete_holds {hash : Nat → Nat} {m : Map} {cs : List Conn} (h : Holds hash m cs) {c : Conn} (hc : c ∈ cs) :
    Holds hash (delete hash m c) (cs.erase c) := by
  obtain ⟨b, hb⟩ := bucket_some (hash := hash) h.pos c.fd
  unfold delete
  simp only
  rw [getD_eq hb]
  have hcb : c ∈ b := by
    have hm := (h.mem.mem_iff (a := c)).2 hc
    rw [List.mem_flatten] at hm
    obtain ⟨b', hb', hcb'⟩ := hm
    obtain ⟨i, hi⟩ := List.getElem?_of_mem hb'
    have := h.place i b' hi c hcb'
    rw [this] at hb
    rw [hi] at hb
    simp only [Option.some.injEq] at hb
    exact hb ▸ hcb'
  refine ⟨by simpa using h.pos, ?_, ?_⟩
  · intro i b' hi x hx
    simp only [List.length_set]
    simp only [List.getElem?_set] at hi
    split at hi
    · rename_i heq
      split at hi
      · simp only [Option.some.injEq] at hi
        subst hi
        rw [← heq]
        exact h.place _ b hb x (List.mem_of_mem_erase hx)
      · simp at hi
    · exact h.place i b' hi x hx
  · obtain ⟨r, h1, h2⟩ := flatten_set m.buckets _ b (b.erase c) hb
    refine h2.trans ?_
    have h3 : List.Perm (b ++ r) cs := h1.symm.trans h.mem
    have h4 := h3.erase c
    rw [List.erase_append_left _ hcb] at h4
    exact h4

theorem run_holds {hash : Nat → Nat} (l : List Act) {m : Map} {cs cs' : List Conn} (h : Holds hash m cs) (hn : (cs.map Conn.fd).Nodup)
    (hl : live cs l = some cs') : Holds hash (run hash m l) cs' ∧ (cs'.map Conn.fd).Nodup := by
  induction l generalizing m cs with
  | nil => simp only [live, Option.some.injEq] at hl; subst hl; exact ⟨h, hn⟩
  | cons a l ih =>
    cases a with
    | opened c =>
      simp only [live] at hl
      split at hl
      · simp at hl
      · rename_i hnot
        exact ih (insert_holds h c) (by rw [List.map_cons, List.nodup_cons]; exact ⟨hnot, hn⟩) hl
    | closed c =>
      simp only [live] at hl
      split at hl
      · rename_i hc
        exact ih (delete_holds h hc) (hn.sublist ((List.erase_sublist).map _)) hl
      · simp at hl

theorem inj_of_nodup {cs : List Conn} (hn : (cs.map Conn.fd).Nodup) {x y : Conn} (hx : x ∈ cs) (hy : y ∈ cs) (h : x.fd = y.fd) : x = y := by
  induction cs with
  | nil => simp at hx
  | cons z cs ih =>
    rw [List.map_cons, List.nodup_cons] at hn
    rw [List.mem_cons] at hx hy
    rcases hx with rfl | hx <;> rcases hy with rfl | hy
    · rfl
    · exact absurd (List.mem_map.2 ⟨y, hy, h.symm⟩) hn.1
    · exact absurd (List.mem_map.2 ⟨x, hx, h⟩) hn.1
    · exact ih hn.2 hx hy

theorem get_holds {hash : Nat → Nat} {m : Map} {cs : List Conn} (h : Holds hash m cs) (hn : (cs.map Conn.fd).Nodup) (fd : Nat) (c : Conn) :
    get hash m fd = some c ↔ c ∈ cs ∧ c.fd = fd := by
  obtain ⟨b, hb⟩ := bucket_some (hash := hash) h.pos fd
  unfold get
  rw [getD_eq hb]
  constructor
  · intro hf
    have h1 := List.mem_of_find?_eq_some hf
    have h2 := List.find?_some hf
    refine ⟨?_, by simpa using h2⟩
    refine (h.mem.mem_iff).1 ?_
    rw [List.mem_flatten]
    exact ⟨b, List.mem_of_getElem? hb, h1⟩
  · rintro ⟨hc, rfl⟩
    have hm := (h.mem.mem_iff (a := c)).2 hc
    rw [List.mem_flatten] at hm
    obtain ⟨b', hb', hcb'⟩ := hm
    obtain ⟨i, hi⟩ := List.getElem?_of_mem hb'
    have hp := h.place i b' hi c hcb'
    rw [hp, hi] at hb
    simp only [Option.some.injEq] at hb
    subst hb
    cases hf : b'.find? (fun x => decide (x.fd = c.fd)) with
    | none =>
      rw [List.find?_eq_none] at hf
      exact absurd (hf c hcb') (by simp)
    | some x =>
      have h1 := List.mem_of_find?_eq_some hf
      have h2 : x.fd = c.fd := by simpa using List.find?_some hf
      have hx : x ∈ cs := (h.mem.mem_iff).1 (List.mem_flatten.2 ⟨b', hb', h1⟩)
      have : x = c := inj_of_nodup hn hx hc h2
      rw [this]

/-- **C64, first half.**  For every hash function and every sequence of openings and closings in which numbers in use are not handed out
again, the table finds for each number exactly the connection that is open with that number, if there is one. -/
theorem table_finds (hash : Nat → Nat) (l : List Act) {cs : List Conn} (hl : live [] l = some cs) (fd : Nat) (c : Conn) :
    get hash (run hash new l) fd = some c ↔ c ∈ cs ∧ c.fd = fd := by
  obtain ⟨h, hn⟩ := run_holds (hash := hash) l (m := new) (empty_holds (by decide) 0) (by simp) hl
  exact get_holds h hn fd c

/-- Hypotheses: three connections in the same bucket, one closed, its number used again. -/
example : live [] [.opened ⟨5, 0⟩, .opened ⟨6, 1⟩, .opened ⟨7, 2⟩, .closed ⟨6, 1⟩, .opened ⟨6, 3⟩] = some [⟨6, 3⟩, ⟨7, 2⟩, ⟨5, 0⟩] ∧
    get (fun _ => 3) (run (fun _ => 3) new [.opened ⟨5, 0⟩, .opened ⟨6, 1⟩, .opened ⟨7, 2⟩, .closed ⟨6, 1⟩, .opened ⟨6, 3⟩]) 6 = some ⟨6, 3⟩ := by
  decide

theorem sizes {hash : Nat → Nat} (l : List Act) {m : Map} {cs cs' : List Conn} (h : Holds hash m cs) (h1 : cs.length ≤ m.len)
    (h2 : m.len * 4 ≤ m.buckets.length * 3) (h3 : m.buckets.length % 4 = 0) (hl : live cs l = some cs') :
    cs'.length ≤ (run hash m l).len ∧ (run hash m l).len * 4 ≤ (run hash m l).buckets.length * 3 := by
  induction l generalizing m cs with
  | nil => simp only [live, Option.some.injEq] at hl; subst hl; exact ⟨h1, h2⟩
  | cons a l ih =>
    cases a with
    | opened c =>
      simp only [live] at hl
      split at hl
      · simp at hl
      · have hp := h.pos
        have key : (c :: cs).length ≤ (insert hash m c).len ∧ (insert hash m c).len * 4 ≤ (insert hash m c).buckets.length * 3 ∧
            (insert hash m c).buckets.length % 4 = 0 := by
          unfold insert
          split
          · obtain ⟨g1, g2, g3⟩ := grow_holds h
            obtain ⟨_, k2, k3⟩ := link_holds g1 c
            rw [k2, k3, g2, g3, List.length_cons]
            omega
          · obtain ⟨_, k2, k3⟩ := link_holds h c
            rw [k2, k3, List.length_cons]
            omega
        exact ih (insert_holds h c) key.1 key.2.1 key.2.2 hl
    | closed c =>
      simp only [live] at hl
      split at hl
      · rename_i hc
        have hlen : (delete hash m c).buckets.length = m.buckets.length := by simp [delete]
        refine ih (delete_holds h hc) ?_ (by rw [hlen]; exact h2) (by rw [hlen]; exact h3) hl
        have : (cs.erase c).length ≤ cs.length := (List.erase_sublist).length_le
        exact Nat.le_trans this h1
      · simp at hl

/-- Growing never has to grow the new table: it holds fewer connections than the number from which on it would. -/
theorem grow_once (hash : Nat → Nat) (l : List Act) {cs : List Conn} (hl : live [] l = some cs) :
    cs.length < (run hash new l).buckets.length * 2 - (run hash new l).buckets.length * 2 / 4 := by
  obtain ⟨h1, h2⟩ := sizes (hash := hash) l (m := new) (empty_holds (by decide) 0) (by simp) (by decide) (by decide) hl
  have hp := (run_holds (hash := hash) l (m := new) (empty_holds (by decide) 0) (by simp) hl).1.pos
  omega

/-- The same client connecting and disconnecting `n` times. -/
def again : Nat → List Act
  | 0 => []
  | n + 1 => .opened ⟨5, 0⟩ :: .closed ⟨5, 0⟩ :: again n

theorem live_again (n : Nat) : live [] (again n) = some [] := by
  induction n with
  | zero => rfl
  | succ n ih =>
    have h1 : ([⟨5, 0⟩] : List Conn).erase ⟨5, 0⟩ = [] := by decide
    simp only [again, live, List.map_nil, List.not_mem_nil, if_false, List.mem_singleton, if_true, h1]
    exact ih

theorem run_again (hash : Nat → Nat) (n : Nat) {m : Map} {t : Nat} (h : Holds hash m []) (h3 : 64 ≤ m.buckets.length)
    (h4 : m.buckets.length % 4 = 0) (hlen : m.len * 4 ≤ m.buckets.length * 3) (ht : 4 * t ≤ 3 * (m.buckets.length - 64) + 4 * m.len) :
    2 * (t + n) ≤ 3 * (run hash m (again n)).buckets.length := by
  induction n generalizing m t with
  | zero => simp only [again, run]; omega
  | succ n ih =>
    have hc : (⟨5, 0⟩ : Conn) ∈ [⟨5, 0⟩] := by simp
    have hd := delete_holds (insert_holds h ⟨5, 0⟩) hc
    have h1 : ([⟨5, 0⟩] : List Conn).erase ⟨5, 0⟩ = [] := by decide
    rw [h1] at hd
    have hl1 : (delete hash (insert hash m ⟨5, 0⟩) ⟨5, 0⟩).buckets.length = (insert hash m ⟨5, 0⟩).buckets.length := by simp [delete]
    have hl2 : (delete hash (insert hash m ⟨5, 0⟩) ⟨5, 0⟩).len = (insert hash m ⟨5, 0⟩).len := rfl
    simp only [again, run]
    have key : 64 ≤ (insert hash m ⟨5, 0⟩).buckets.length ∧ (insert hash m ⟨5, 0⟩).buckets.length % 4 = 0 ∧
        (insert hash m ⟨5, 0⟩).len * 4 ≤ (insert hash m ⟨5, 0⟩).buckets.length * 3 ∧
        4 * (t + 1) ≤ 3 * ((insert hash m ⟨5, 0⟩).buckets.length - 64) + 4 * (insert hash m ⟨5, 0⟩).len := by
      unfold insert
      split
      · obtain ⟨g1, g2, g3⟩ := grow_holds h
        obtain ⟨_, k2, k3⟩ := link_holds g1 ⟨5, 0⟩
        rw [k2, k3, g2, g3, List.length_nil]
        omega
      · obtain ⟨_, k2, k3⟩ := link_holds h ⟨5, 0⟩
        rw [k2, k3]
        omega
    have := ih hd (t := t + 1) (by rw [hl1]; exact key.1) (by rw [hl1]; exact key.2.1) (by rw [hl1, hl2]; exact key.2.2.1)
      (by rw [hl1, hl2]; exact key.2.2.2)
    omega

/-- **C64, second half, negation.**  The table grows without bound: after one and the same client has connected and disconnected `n` times,
nobody is connected and the table has at least 2n/3 buckets. -/
theorem table_grows_forever (hash : Nat → Nat) (n : Nat) :
    live [] (again n) = some [] ∧ 2 * n ≤ 3 * (run hash new (again n)).buckets.length := by
  refine ⟨live_again n, ?_⟩
  have := run_again hash n (m := new) (t := 0) (empty_holds (by decide) 0) (by decide) (by decide) (by decide) (by decide)
  omega

end Verif.Net.Cmap
