import Mathlib.Tactic.Common

/-!
C63: which connections are treated as TLS, `/repo/src/net.c:428-461, 573-643, 868-884`.

A socket accepted on the TLS port is remembered by its number in `tls_ready_fds`; the worker that sees its first event looks it up there.
The steps of accepting threads and workers may interleave in any order; the list is changed under a mutex, one step each.  The kernel may
hand out any number not in use.
-/

namespace Verif.Net.Tls

/-- A socket from `accept` on: waiting for its first event, or a connection that is treated as TLS or not. -/
inductive Sock where
  | waiting (port : Bool)
  | conn (port : Bool) (tls : Bool)
deriving DecidableEq, Repr

/-- The sockets in use by their numbers, and `tls_ready_fds`, `/repo/src/net.c:430-431`.  `port` tells the port the socket was accepted on. -/
structure St where
  socks : List (Nat × Sock)
  ready : List Nat
deriving DecidableEq, Repr

/-- `del_tls_fd`, `/repo/src/net.c:447-461`: the first occurrence is overwritten by the last element. -/
def delFd (l : List Nat) (fd : Nat) : List Nat × Bool :=
  if fd ∈ l then ((l.set (l.idxOf fd) (l.getLastD 0)).dropLast, true) else (l, false)

/-- What may happen: a connection is accepted on a port and is given the number `fd` (lines 579-612); the registration of an accepted socket
fails (lines 605-611); the first event of a socket, which is refused (lines 619-625) or admitted (lines 626-643, with a successful or a failed
handshake, if it is treated as TLS); a connection is closed (lines 868-884). -/
inductive Act where
  | accept (fd : Nat) (port : Bool)
  | unregistered (fd : Nat)
  | refuse (fd : Nat)
  | admit (fd : Nat) (handshake : Bool)
  | close (fd : Nat)
deriving DecidableEq, Repr

/-- One step; `none` if it is not possible. -/
def step (s : St) : Act → Option St
  | .accept fd port =>
    if (s.socks.lookup fd).isSome then none
    else some ⟨(fd, .waiting port) :: s.socks, if port then s.ready ++ [fd] else s.ready⟩
  | .unregistered fd =>
    match s.socks.lookup fd with
    | some (.waiting port) => some ⟨s.socks.filter (·.1 ≠ fd), if port then (delFd s.ready fd).1 else s.ready⟩
    | _ => none
  | .refuse fd =>
    match s.socks.lookup fd with
    | some (.waiting _) => some ⟨s.socks.filter (·.1 ≠ fd), s.ready⟩
    | _ => none
  | .admit fd handshake =>
    match s.socks.lookup fd with
    | some (.waiting port) =>
      let r := delFd s.ready fd
      if r.2 ∧ handshake = false then some ⟨s.socks.filter (·.1 ≠ fd), r.1⟩
      else some ⟨(fd, .conn port r.2) :: s.socks.filter (·.1 ≠ fd), r.1⟩
    | _ => none
  | .close fd =>
    match s.socks.lookup fd with
    | some (.conn _ _) => some ⟨s.socks.filter (·.1 ≠ fd), s.ready⟩
    | _ => none

/-- Several steps. -/
def steps : St → List Act → Option St
  | s, [] => some s
  | s, a :: l => (step s a).bind fun s => steps s l

/-- A TLS socket is refused because there are too many connections. -/
def RefusesTls (s : St) (a : Act) : Prop := ∃ fd, a = .refuse fd ∧ s.socks.lookup fd = some (.waiting true)

/-- No step refuses a TLS socket. -/
def NeverRefuses : St → List Act → Prop
  | _, [] => True
  | s, a :: l => ¬ RefusesTls s a ∧ ∀ s', step s a = some s' → NeverRefuses s' l

/-- Every connection is treated as TLS exactly if it was accepted on the TLS port. -/
def Right (s : St) : Prop := ∀ fd port tls, s.socks.lookup fd = some (.conn port tls) → tls = port

/-! ### Proofs -/

theorem lookup_filter_ne {β : Type} (l : List (Nat × β)) (fd x : Nat) :
    (l.filter (·.1 ≠ fd)).lookup x = if x = fd then none else l.lookup x := by
  induction l with
  | nil => simp
  | cons p l ih =>
    obtain ⟨k, v⟩ := p
    by_cases hk : k = fd
    · subst hk
      rw [List.filter_cons_of_neg (by simp), ih]
      by_cases hx : x = k
      · simp [hx]
      · have : (x == k) = false := by simpa using hx
        rw [if_neg hx, if_neg hx, List.lookup_cons, this]
    · rw [List.filter_cons_of_pos (by simpa using hk), List.lookup_cons, List.lookup_cons, ih]
      by_cases hx : x = k
      · subst hx; simp [hk]
      · have : (x == k) = false := by simpa using hx
        rw [this]

theorem delFd_perm {l : List Nat} {fd : Nat} (h : fd ∈ l) : List.Perm (fd :: (delFd l fd).1) l := by
  unfold delFd
  rw [if_pos h]
  simp only
  rw [List.perm_iff_count]
  intro a
  have hne : l ≠ [] := by rintro rfl; simp at h
  have hi : l.idxOf fd < l.length := List.idxOf_lt_length_of_mem h
  have hset : l.set (l.idxOf fd) (l.getLastD 0) ≠ [] := by
    intro hc
    have := congrArg List.length hc
    simp at this
    exact hne this
  have hlast : (l.set (l.idxOf fd) (l.getLastD 0)).getLast hset = l.getLastD 0 := by
    rw [List.getLast_eq_getElem]
    simp only [List.length_set, List.getElem_set]
    split
    · rfl
    · have : l.getLastD 0 = l.getLast hne := by rw [List.getLastD_eq_getLast?, List.getLast?_eq_some_getLast hne, Option.getD_some]
      exact (List.getLast_eq_getElem hne).symm.trans this.symm
  have hcat := List.dropLast_concat_getLast hset
  rw [hlast] at hcat
  have hc := congrArg (List.count a) hcat
  rw [List.count_append, List.count_set hi] at hc
  have hget : l[l.idxOf fd] = fd := List.getElem_idxOf hi
  rw [hget] at hc
  rw [List.count_cons]
  have hpos : 0 < List.count fd l := List.count_pos_iff.2 h
  simp only [List.count_cons, List.count_nil] at hc
  by_cases h1 : fd = a
  · subst h1
    simp only [beq_self_eq_true, if_true] at hc ⊢
    omega
  · have h2 : (fd == a) = false := by simpa using h1
    simp only [h2, Bool.false_eq_true, if_false] at hc ⊢
    omega

/-- The list contains each waiting TLS socket once, and nothing else. -/
structure Inv (s : St) : Prop where
  nodup : s.ready.Nodup
  ready : ∀ fd, fd ∈ s.ready ↔ s.socks.lookup fd = some (.waiting true)
  right : Right s

theorem delFd_inv {l : List Nat} {fd : Nat} (hn : l.Nodup) :
    (delFd l fd).1.Nodup ∧ (∀ x, x ∈ (delFd l fd).1 ↔ x ∈ l ∧ x ≠ fd) ∧ ((delFd l fd).2 = true ↔ fd ∈ l) := by
  by_cases h : fd ∈ l
  · have hp := delFd_perm h
    have hn' : (fd :: (delFd l fd).1).Nodup := hp.nodup_iff.2 hn
    rw [List.nodup_cons] at hn'
    refine ⟨hn'.2, fun x => ?_, by unfold delFd; simp [h]⟩
    rw [← hp.mem_iff]
    simp only [List.mem_cons]
    constructor
    · intro hx
      exact ⟨Or.inr hx, by rintro rfl; exact hn'.1 hx⟩
    · rintro ⟨rfl | hx, hne⟩
      · exact absurd rfl hne
      · exact hx
  · unfold delFd
    rw [if_neg h]
    refine ⟨hn, fun x => ⟨fun hx => ⟨hx, by rintro rfl; exact h hx⟩, fun hx => hx.1⟩, by simp [h]⟩

theorem step_inv {s s' : St} {a : Act} (h : Inv s) (hno : ¬ RefusesTls s a) (hs : step s a = some s') : Inv s' := by
  obtain ⟨h1, h2, h3⟩ := h
  cases a with
  | accept fd port =>
    simp only [step] at hs
    split at hs
    · simp at hs
    · rename_i hf
      simp only [Option.some.injEq] at hs
      subst hs
      have hf' : s.socks.lookup fd = none := by cases hq : s.socks.lookup fd <;> simp [hq] at hf; rfl
      have hnot : fd ∉ s.ready := by rw [h2, hf']; simp
      refine ⟨?_, ?_, ?_⟩
      · cases port
        · simpa using h1
        · simp only [if_true]
          rw [List.nodup_append]
          refine ⟨h1, by simp, ?_⟩
          intro x hx y hy
          simp only [List.mem_singleton] at hy
          subst hy
          rintro rfl
          exact hnot hx
      · intro x
        simp only [List.lookup_cons]
        by_cases hx : x = fd
        · subst hx
          cases port <;> simp [hnot]
        · have : (x == fd) = false := by simpa using hx
          cases port <;> simp [this, h2, hx]
      · intro x p t hx
        simp only [List.lookup_cons] at hx
        by_cases hxf : x = fd
        · subst hxf; simp at hx
        · have : (x == fd) = false := by simpa using hxf
          simp only [this] at hx
          exact h3 x p t hx
  | unregistered fd =>
    simp only [step] at hs
    split at hs
    · rename_i port hl
      simp only [Option.some.injEq] at hs
      subst hs
      obtain ⟨g1, g2, _⟩ := delFd_inv (fd := fd) h1
      refine ⟨?_, ?_, ?_⟩
      · cases port
        · simpa using h1
        · simpa using g1
      · intro x
        simp only [lookup_filter_ne]
        cases port
        · by_cases hx : x = fd
          · subst hx; simp [h2, hl]
          · simp [hx, h2]
        · by_cases hx : x = fd
          · subst hx; simp [g2]
          · simp [hx, g2, h2]
      · intro x p t hx
        simp only [lookup_filter_ne] at hx
        split at hx
        · simp at hx
        · exact h3 x p t hx
    · simp at hs
  | refuse fd =>
    simp only [step] at hs
    split at hs
    · rename_i port hl
      simp only [Option.some.injEq] at hs
      subst hs
      have hp : port = false := by
        cases port with
        | false => rfl
        | true => exact absurd ⟨fd, rfl, hl⟩ hno
      subst hp
      refine ⟨h1, ?_, ?_⟩
      · intro x
        simp only [lookup_filter_ne]
        by_cases hx : x = fd
        · subst hx; simp [h2, hl]
        · simp [hx, h2]
      · intro x p t hx
        simp only [lookup_filter_ne] at hx
        split at hx
        · simp at hx
        · exact h3 x p t hx
    · simp at hs
  | admit fd handshake =>
    simp only [step] at hs
    split at hs
    · rename_i port hl
      obtain ⟨g1, g2, g3⟩ := delFd_inv (fd := fd) h1
      have hr : (delFd s.ready fd).2 = port := by
        rw [Bool.eq_iff_iff, g3, h2, hl]
        simp
      split at hs
      · simp only [Option.some.injEq] at hs
        subst hs
        refine ⟨g1, ?_, ?_⟩
        · intro x
          simp only [lookup_filter_ne, g2]
          by_cases hx : x = fd
          · simp [hx]
          · simp [hx, h2]
        · intro x p t hx
          simp only [lookup_filter_ne] at hx
          split at hx
          · simp at hx
          · exact h3 x p t hx
      · simp only [Option.some.injEq] at hs
        subst hs
        refine ⟨g1, ?_, ?_⟩
        · intro x
          simp only [List.lookup_cons, lookup_filter_ne, g2]
          by_cases hx : x = fd
          · subst hx; simp
          · have : (x == fd) = false := by simpa using hx
            simp [this, hx, h2]
        · intro x p t hx
          simp only [List.lookup_cons, lookup_filter_ne] at hx
          by_cases hxf : x = fd
          · subst hxf
            simp only [beq_self_eq_true, Option.some.injEq, Sock.conn.injEq] at hx
            rw [← hx.1, ← hx.2, hr]
          · have : (x == fd) = false := by simpa using hxf
            simp only [this, if_neg hxf] at hx
            exact h3 x p t hx
    · simp at hs
  | close fd =>
    simp only [step] at hs
    split at hs
    · rename_i p0 t0 hl
      simp only [Option.some.injEq] at hs
      subst hs
      refine ⟨h1, ?_, ?_⟩
      · intro x
        simp only [lookup_filter_ne]
        by_cases hx : x = fd
        · subst hx; simp [h2, hl]
        · simp [hx, h2]
      · intro x p t hx
        simp only [lookup_filter_ne] at hx
        split at hx
        · simp at hx
        · exact h3 x p t hx
    · simp at hs

theorem steps_inv {l : List Act} {s s' : St} (h : Inv s) (hno : NeverRefuses s l) (hs : steps s l = some s') : Inv s' := by
  induction l generalizing s with
  | nil => simp only [steps, Option.some.injEq] at hs; exact hs ▸ h
  | cons a l ih =>
    simp only [steps, Option.bind_eq_some_iff] at hs
    obtain ⟨s1, h1, h2⟩ := hs
    exact ih (step_inv h hno.1 h1) (hno.2 s1 h1) h2

/-- **C63** (`_partial`: as long as no connection from the TLS port is refused because of `maxconns`).  Whatever the numbers the kernel hands
out and the order of the steps, every connection is treated as TLS exactly if it was accepted on the TLS port. -/
theorem tls_iff_tls_port_partial (l : List Act) {s : St} (hno : NeverRefuses ⟨[], []⟩ l) (h : steps ⟨[], []⟩ l = some s) : Right s :=
  (steps_inv ⟨by simp, by simp, by intro fd p t h; simp at h⟩ hno h).right

/-- Hypotheses: connections on both ports, the first events in the other order, a number reused for the other port. -/
example : ∃ s, steps ⟨[], []⟩ [.accept 7 true, .accept 8 false, .admit 8 true, .admit 7 true, .close 7, .accept 7 false, .admit 7 true] = some s ∧
    s.socks.lookup 7 = some (.conn false false) ∧
    NeverRefuses ⟨[], []⟩ [.accept 7 true, .accept 8 false, .admit 8 true, .admit 7 true, .close 7, .accept 7 false, .admit 7 true] := by
  refine ⟨_, rfl, by decide, ?_⟩
  simp [NeverRefuses, RefusesTls]

/-- **C63, negation.**  A connection on the TLS port is refused because there are too many; the next connection on the port without TLS
that is given the same number is treated as TLS. -/
theorem refused_tls_taints_number : ∃ l s, steps ⟨[], []⟩ l = some s ∧ s.socks.lookup 7 = some (.conn false true) :=
  ⟨[.accept 7 true, .refuse 7, .accept 7 false, .admit 7 true], _, rfl, by decide⟩

end Verif.Net.Tls
