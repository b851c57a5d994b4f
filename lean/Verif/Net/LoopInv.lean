import Mathlib.Tactic.Common
import Mathlib.Data.List.Perm.Basic
import Mathlib.Data.List.Count
import Verif.Net.Loop

/-! Invariants of the event loop (`Verif.Net.Loop`). -/

namespace Verif.Net.Loop

open Function (update)

/-- Everything in a queue. -/
def busy (s : S) : List Nat := s.qattachs ++ s.qreads ++ s.qins.map (·.1) ++ s.qouts ++ s.qcloses

/-- What epoll waits for, depending on background work. -/
def wants : Option Bool → Option Want
  | none => some .read
  | some false => none
  | some true => some .write

/-- What holds of a connection, depending on the queue it is in. -/
structure ConnOk (lst : Nat → Bool) (s : S) (id : Nat) (k : Conn) : Prop where
  fresh : id < s.next
  isopen : s.isopen k.fd = true
  lst : lst k.fd = false
  reg : s.reg k.fd = wants k.bg
  attach : id ∈ s.qattachs → k.bg = some true
  reads : id ∈ s.qreads → k.bg = none ∧ k.out = [] ∧ k.closed = false
  ins : id ∈ s.qins.map (·.1) → k.bg = none ∧ k.out = [] ∧ k.closed = false
  outs : id ∈ s.qouts → k.bg = none
  closes : id ∈ s.qcloses → k.bg = none ∧ k.out = []
  idle : id ∉ busy s → k.bg = none → k.out = [] ∧ k.closed = false
  event : k.fd ∈ s.events → id ∉ busy s
  stat : k.stat = 0

/-- Which queues are empty where. -/
def Empty (s : S) : Prop :=
  match s.pc with
  | .top => s.events = [] ∧ busy s = []
  | .wait => s.events = [] ∧ busy s = [] ∧ s.sum = 0
  | .accept => True
  | .attach => s.events = []
  | .read => s.events = [] ∧ s.qattachs = []
  | .process => s.events = [] ∧ s.qattachs = [] ∧ s.qreads = []
  | .write => s.events = [] ∧ s.qattachs = [] ∧ s.qreads = [] ∧ s.qins = []
  | .close => s.events = [] ∧ s.qattachs = [] ∧ s.qreads = [] ∧ s.qins = [] ∧ s.qouts = []

/-- Number of countings. -/
def counted (l : List Ev) : Nat := l.countP fun | .counted _ => true | _ => false

theorem counted_append (l m : List Ev) : counted (l ++ m) = counted l + counted m := List.countP_append

theorem flush_counted (id : Nat) (b : Bool) (k : Conn) : counted (flush id b k).2 = 0 := by
  unfold flush
  split
  · rfl
  · split <;> rfl

structure Inv (cap : Nat) (lst : Nat → Bool) (hash : Nat → Nat) (s : S) (cs : List Cmap.Conn) : Prop where
  holds : Cmap.Holds hash s.table cs
  fds : (cs.map Cmap.Conn.fd).Nodup
  ids : ∀ c ∈ cs, ∃ k, s.heap c.id = some k ∧ k.fd = c.fd
  mem : ∀ id k, s.heap id = some k → (⟨k.fd, id⟩ : Cmap.Conn) ∈ cs
  count : s.nconns = cs.length
  conn : ∀ id k, s.heap id = some k → ConnOk lst s id k
  alive : ∀ id ∈ busy s, ∃ k, s.heap id = some k
  nodup : (busy s).Nodup
  evnodup : s.events.Nodup
  evreg : ∀ fd ∈ s.events, s.reg fd ≠ none
  room : s.events.length + (busy s).length ≤ cap
  empty : Empty s
  regopen : ∀ fd, s.reg fd ≠ none → s.isopen fd = true
  waiting : ∀ fd, s.isopen fd = true → fd ∉ cs.map Cmap.Conn.fd → s.reg fd = some .read
  listen : ∀ fd, lst fd = true → s.isopen fd = true
  total : counted s.log = s.glob + s.sum

theorem flush_fd (id : Nat) (b : Bool) (k : Conn) : (flush id b k).1.fd = k.fd ∧ (flush id b k).1.bg = k.bg ∧ (flush id b k).1.out = [] ∧
    (flush id b k).1.stat = k.stat := by
  unfold flush
  split
  · rename_i h; exact ⟨rfl, rfl, h, rfl⟩
  · split <;> exact ⟨rfl, rfl, rfl, rfl⟩

/-- What a handler leaves: the socket, the counter, and epoll waiting as it should. -/
theorem runOps_ok {id : Nat} (os : List Op) {k : Conn} {w : Option Want} {l : List Ev} (hw : w = wants k.bg) :
    ∃ k1 w1 l1, runOps id os (k, w, l) = some (k1, w1, l1) ∧ k1.fd = k.fd ∧ w1 = wants k1.bg ∧ k1.stat + counted l = k.stat + counted l1 ∧
      (k.bg ≠ none → k1.bg = k.bg) ∧ (.count ∉ os → counted l1 = counted l) := by
  induction os generalizing k w l with
  | nil => exact ⟨k, w, l, rfl, rfl, hw, rfl, fun _ => rfl, fun _ => rfl⟩
  | cons o os ih =>
    rw [runOps]
    cases o with
    | write d =>
      obtain ⟨k1, w1, l1, h1, h2, h3, h4, h5, h6⟩ := ih (k := { k with out := k.out ++ d }) (l := l ++ [.wrote id d]) hw
      rw [counted_append, show counted [.wrote id d] = 0 from rfl] at h4 h6
      exact ⟨k1, w1, l1, by simpa [runOp] using h1, h2, h3, h4, h5, fun a => h6 (by simpa using a)⟩
    | close =>
      obtain ⟨k1, w1, l1, h1, h2, h3, h4, h5, h6⟩ := ih (k := { k with closed := true }) (l := l) hw
      exact ⟨k1, w1, l1, by simpa [runOp] using h1, h2, h3, h4, h5, fun a => h6 (by simpa using a)⟩
    | count =>
      obtain ⟨k1, w1, l1, h1, h2, h3, h4, h5, h6⟩ := ih (k := { k with stat := k.stat + 1 }) (l := l ++ [.counted id]) hw
      refine ⟨k1, w1, l1, by simpa [runOp] using h1, h2, h3, ?_, h5, fun a => by simp at a⟩
      rw [counted_append, show counted [.counted id] = 1 from rfl] at h4
      simp only [] at h4
      omega
    | bgwork b =>
      by_cases hc : k.bg ≠ none ∨ k.closed = true
      · obtain ⟨k1, w1, l1, h1, h2, h3, h4, h5, h6⟩ := ih (k := k) (l := l) hw
        exact ⟨k1, w1, l1, by rw [runOp, if_pos hc]; exact h1, h2, h3, h4, h5, fun a => h6 (by simpa using a)⟩
      · obtain ⟨f1, f2, f3, f4⟩ := flush_fd id b k
        have f5 := flush_counted id b k
        have hb : k.bg = none := by
          by_contra hx; exact hc (.inl hx)
        by_cases hcl : (flush id b k).1.closed = true
        · obtain ⟨k1, w1, l1, h1, h2, h3, h4, h5, h6⟩ := ih (k := (flush id b k).1) (l := l ++ (flush id b k).2) (w := w) (by rw [f2]; exact hw)
          rw [counted_append, f5] at h4 h6
          refine ⟨k1, w1, l1, ?_, by rw [h2, f1], h3, by rw [f4] at h4; exact h4, fun h => absurd hb h, fun a => h6 (by simpa using a)⟩
          rw [runOp, if_neg hc]
          simp only [if_pos hcl, Option.bind_some]
          exact h1
        · obtain ⟨k1, w1, l1, h1, h2, h3, h4, h5, h6⟩ := ih (k := { (flush id b k).1 with bg := some false }) (l := l ++ (flush id b k).2) (w := none) rfl
          rw [counted_append, f5] at h4 h6
          refine ⟨k1, w1, l1, ?_, by rw [h2]; exact f1, h3, by simp only [f4] at h4; exact h4, fun h => absurd hb h, fun a => h6 (by simpa using a)⟩
          rw [runOp, if_neg hc]
          have : ¬ (w ≠ some .read) := by rw [hw, hb]; simp [wants]
          simp only [if_neg hcl, if_neg this, Option.bind_some]
          exact h1

variable {cap : Nat} {lst : Nat → Bool} {hash : Nat → Nat}

/-- Two connections with the same number are the same. -/
theorem Inv.inj {s : S} {cs : List Cmap.Conn} (h : Inv cap lst hash s cs) {a b : Nat} {ka kb : Conn} (ha : s.heap a = some ka) (hb : s.heap b = some kb)
    (he : ka.fd = kb.fd) : a = b := by
  have := Cmap.inj_of_nodup h.fds (h.mem a ka ha) (h.mem b kb hb) he
  simp only [Cmap.Conn.mk.injEq] at this
  exact this.2

theorem mem_move {l l' : List Nat} {id x : Nat} (hx : x ≠ id) (h : l = id :: l') : x ∈ l ↔ x ∈ l' := by
  subst h; simp [hx]

theorem mem_snoc {l : List Nat} {id x : Nat} (hx : x ≠ id) : x ∈ l ++ [id] ↔ x ∈ l := by simp [hx]

/-- A connection is not touched by a step that handles another one. -/
theorem ConnOk.frame {s s' : S} {x : Nat} {k : Conn} (h : ConnOk lst s x k) (h0 : s.next ≤ s'.next) (h1 : s'.isopen k.fd = s.isopen k.fd)
    (h2 : s'.reg k.fd = s.reg k.fd) (h3 : x ∈ s'.qattachs ↔ x ∈ s.qattachs) (h4 : x ∈ s'.qreads ↔ x ∈ s.qreads)
    (h5 : x ∈ s'.qins.map (·.1) ↔ x ∈ s.qins.map (·.1)) (h6 : x ∈ s'.qouts ↔ x ∈ s.qouts) (h7 : x ∈ s'.qcloses ↔ x ∈ s.qcloses)
    (h8 : ∀ fd ∈ s'.events, fd ∈ s.events) : ConnOk lst s' x k := by
  have hb : x ∈ busy s' ↔ x ∈ busy s := by
    simp only [busy, List.mem_append, h3, h4, h5, h6, h7]
  refine ⟨by have := h.fresh; omega, by rw [h1]; exact h.isopen, h.lst, by rw [h2]; exact h.reg, fun a => h.attach (h3.1 a), fun a => h.reads (h4.1 a),
    fun a => h.ins (h5.1 a), fun a => h.outs (h6.1 a), fun a => h.closes (h7.1 a), fun a => h.idle (fun b => a (hb.2 b)), fun a b => h.event (h8 _ a) (hb.1 b), h.stat⟩

/-- The queues of the others are the same. -/
def Same (id : Nat) (s s' : S) : Prop :=
  ∀ x, x ≠ id → (x ∈ s'.qattachs ↔ x ∈ s.qattachs) ∧ (x ∈ s'.qreads ↔ x ∈ s.qreads) ∧ (x ∈ s'.qins.map (·.1) ↔ x ∈ s.qins.map (·.1)) ∧
    (x ∈ s'.qouts ↔ x ∈ s.qouts) ∧ (x ∈ s'.qcloses ↔ x ∈ s.qcloses)

theorem Same.busy {id : Nat} {s s' : S} (h : Same id s s') {x : Nat} (hx : x ≠ id) : x ∈ busy s' ↔ x ∈ busy s := by
  obtain ⟨h1, h2, h3, h4, h5⟩ := h x hx
  simp only [Loop.busy, List.mem_append, h1, h2, h3, h4, h5]

/-- A step that handles one connection. -/
theorem Inv.touch {s s' : S} {cs : List Cmap.Conn} (h : Inv cap lst hash s cs) {id : Nat} {k k' : Conn} (hk : s.heap id = some k) (hfd : k'.fd = k.fd)
    (hheap : s'.heap = update s.heap id (some k')) (htab : s'.table = s.table) (hnext : s'.next = s.next) (hn : s'.nconns = s.nconns)
    (hopen : s'.isopen = s.isopen) (hreg : s'.reg = update s.reg k.fd (wants k'.bg)) (hev : ∀ fd ∈ s'.events, fd ∈ s.events) (hevn : s'.events.Nodup)
    (hevk : k.fd ∉ s'.events) (hsame : Same id s s') (hok : ConnOk lst s' id k') (hnd : (busy s').Nodup)
    (hroom : s'.events.length + (busy s').length ≤ cap) (hemp : Empty s') (htot : counted s'.log = s'.glob + s'.sum) : Inv cap lst hash s' cs := by
  have hkopen := (h.conn id k hk).isopen
  have hin : k.fd ∈ cs.map Cmap.Conn.fd := List.mem_map.2 ⟨_, h.mem id k hk, rfl⟩
  refine ⟨by rw [htab]; exact h.holds, h.fds, ?_, ?_, by rw [hn]; exact h.count, ?_, ?_, hnd, hevn, ?_, hroom, hemp, ?_, ?_,
    fun fd a => by rw [hopen]; exact h.listen fd a, htot⟩
  · intro c hc
    obtain ⟨k0, h1, h2⟩ := h.ids c hc
    by_cases hi : c.id = id
    · rw [hi] at h1
      rw [hk] at h1
      simp only [Option.some.injEq] at h1
      subst h1
      exact ⟨k', by rw [hheap, hi]; simp, by rw [hfd, h2]⟩
    · exact ⟨k0, by rw [hheap, Function.update_of_ne hi]; exact h1, h2⟩
  · intro x kx hx
    rw [hheap] at hx
    by_cases hi : x = id
    · subst hi
      simp only [Function.update_self, Option.some.injEq] at hx
      rw [← hx, hfd]
      exact h.mem _ _ hk
    · rw [Function.update_of_ne hi] at hx
      exact h.mem x kx hx
  · intro x kx hx
    rw [hheap] at hx
    by_cases hi : x = id
    · subst hi
      simp only [Function.update_self, Option.some.injEq] at hx
      rw [← hx]
      exact hok
    · rw [Function.update_of_ne hi] at hx
      obtain ⟨s1, s2, s3, s4, s5⟩ := hsame x hi
      refine (h.conn x kx hx).frame (Nat.le_of_eq hnext.symm) (by rw [hopen]) ?_ s1 s2 s3 s4 s5 hev
      rw [hreg, Function.update_of_ne]
      intro he
      exact hi (h.inj hx hk he)
  · intro x hx
    by_cases hi : x = id
    · subst hi; exact ⟨k', by rw [hheap]; simp⟩
    · obtain ⟨kx, hkx⟩ := h.alive x ((hsame.busy hi).1 hx)
      exact ⟨kx, by rw [hheap, Function.update_of_ne hi]; exact hkx⟩
  · intro fd hfd'
    rw [hreg]
    have : fd ≠ k.fd := by rintro rfl; exact hevk hfd'
    rw [Function.update_of_ne this]
    exact h.evreg fd (hev fd hfd')
  · intro fd hr
    rw [hopen]
    by_cases he : fd = k.fd
    · rw [he]; exact hkopen
    · rw [hreg, Function.update_of_ne he] at hr
      exact h.regopen fd hr
  · intro fd ho hni
    have : fd ≠ k.fd := by rintro rfl; exact hni hin
    rw [hreg, Function.update_of_ne this]
    rw [hopen] at ho
    exact h.waiting fd ho hni

theorem update_id {α β : Type} [DecidableEq α] (f : α → β) (a : α) : f = update f a (f a) := by simp

/-- `sort` finds room, and leaves everything in order. -/
theorem sort_inv {s : S} {cs : List Cmap.Conn} (h : Inv cap lst hash s cs) {id : Nat} {k : Conn} (hk : s.heap id = some k) (hb : id ∉ busy s)
    (hev : k.fd ∉ s.events) (hroom : s.events.length + (busy s).length < cap) (hpc : s.pc = .accept) (hreg : s.reg k.fd ≠ none) :
    ∃ s', sort cap s id k = .ok s' ∧ Inv cap lst hash s' cs := by
  have hc := h.conn id k hk
  have hnd := h.nodup
  unfold sort
  by_cases hbg : k.bg = none
  · obtain ⟨ho, hcl⟩ := hc.idle hb hbg
    have hl : s.qreads.length < cap := by simp only [busy, List.length_append] at hroom; omega
    rw [if_neg (by simp [hbg]), if_neg (by simp [ho]), if_neg (by simp [hcl]), if_pos hl]
    have hp : (busy { s with qreads := s.qreads ++ [id] }).Perm (id :: busy s) := by
      rw [List.perm_iff_count]; intro a; simp only [busy, List.count_append, List.count_cons, List.count_nil]; omega
    refine ⟨_, rfl, h.touch hk rfl (k' := k) (update_id _ _ |>.trans (by rw [hk])) rfl rfl rfl rfl (by rw [← hc.reg]; exact update_id _ _) (fun _ a => a)
      h.evnodup hev ?_ ?_ ?_ ?_ ?_ h.total⟩
    · intro x hx; simp [hx]
    · refine ⟨hc.fresh, hc.isopen, hc.lst, hc.reg, hc.attach, fun _ => ⟨hbg, ho, hcl⟩, hc.ins, hc.outs, hc.closes, fun _ _ => ⟨ho, hcl⟩, fun a => absurd a hev, hc.stat⟩
    · rw [hp.nodup_iff, List.nodup_cons]; exact ⟨hb, hnd⟩
    · rw [hp.length_eq, List.length_cons]; show s.events.length + _ ≤ cap; omega
    · show Empty _
      simp only [Empty, hpc]
  · have hl : s.qattachs.length < cap := by simp only [busy, List.length_append] at hroom; omega
    rw [if_pos hbg, if_pos hl]
    have hp : (busy { s with qattachs := s.qattachs ++ [id] }).Perm (id :: busy s) := by
      rw [List.perm_iff_count]; intro a; simp only [busy, List.count_append, List.count_cons, List.count_nil]; omega
    have hb2 : k.bg = some true := by
      have := hc.reg
      rcases hx : k.bg with _ | _ | _
      · exact absurd hx hbg
      · rw [hx] at this; exact absurd this hreg
      · rfl
    refine ⟨_, rfl, h.touch hk rfl (k' := k) (update_id _ _ |>.trans (by rw [hk])) rfl rfl rfl rfl (by rw [← hc.reg]; exact update_id _ _) (fun _ a => a)
      h.evnodup hev ?_ ?_ ?_ ?_ ?_ h.total⟩
    · intro x hx; simp [hx]
    · refine ⟨hc.fresh, hc.isopen, hc.lst, hc.reg, fun _ => hb2, hc.reads, hc.ins, hc.outs, hc.closes, fun _ a => absurd a hbg, fun a => absurd a hev, hc.stat⟩
    · rw [hp.nodup_iff, List.nodup_cons]; exact ⟨hb, hnd⟩
    · rw [hp.length_eq, List.length_cons]; show s.events.length + _ ≤ cap; omega
    · show Empty _
      simp only [Empty, hpc]

/-- An event that changes nothing but the list of events. -/
theorem Inv.pop {s : S} {cs : List Cmap.Conn} (h : Inv cap lst hash s cs) (hpc : s.pc = .accept) {fd : Nat} {l : List Nat} (he : s.events = fd :: l) :
    Inv cap lst hash { s with events := l } cs := by
  have hsub : ∀ x ∈ l, x ∈ s.events := fun x hx => by rw [he]; exact List.mem_cons_of_mem _ hx
  have hn := h.evnodup
  have hr := h.room
  rw [he] at hn hr
  rw [List.nodup_cons] at hn
  rw [List.length_cons] at hr
  refine ⟨h.holds, h.fds, h.ids, h.mem, h.count, ?_, h.alive, h.nodup, hn.2, fun x hx => h.evreg x (hsub x hx), ?_, ?_, h.regopen, h.waiting, h.listen, h.total⟩
  · intro x kx hx
    exact (h.conn x kx hx).frame (Nat.le_refl _) rfl rfl Iff.rfl Iff.rfl Iff.rfl Iff.rfl Iff.rfl hsub
  · show l.length + (busy s).length ≤ cap; omega
  · simp only [Empty, hpc]

theorem accept_inv {s : S} {cs : List Cmap.Conn} (h : Inv cap lst hash s cs) (hpc : s.pc = .accept) {fd : Nat} {l : List Nat} (he : s.events = fd :: l)
    (o : Orc) : ∃ s' cs', acceptStep cap lst hash o s fd l = .ok s' ∧ Inv cap lst hash s' cs' := by
  have h1 := h.pop hpc he
  have hfdl : fd ∉ l := by have := h.evnodup; rw [he, List.nodup_cons] at this; exact this.1
  have hr := h.room
  rw [he, List.length_cons] at hr
  have hreg : s.reg fd ≠ none := h.evreg fd (by rw [he]; simp)
  unfold acceptStep
  cases hg : Cmap.get hash s.table fd with
  | some c =>
    obtain ⟨hc, hcf⟩ := (Cmap.get_holds h.holds h.fds fd c).1 hg
    obtain ⟨k, hk, hkf⟩ := h.ids c hc
    have hkfd : k.fd = fd := by rw [hkf, hcf]
    simp only [hk]
    have hb : c.id ∉ busy s := (h.conn _ _ hk).event (by rw [hkfd, he]; simp)
    obtain ⟨s', a, b⟩ := sort_inv h1 (id := c.id) (k := k) hk hb (by show k.fd ∉ l; rw [hkfd]; exact hfdl) (by show l.length + (busy s).length < cap; omega) hpc
      (by show s.reg k.fd ≠ none; rw [hkfd]; exact hreg)
    exact ⟨s', cs, a, b⟩
  | none =>
    have hnot : fd ∉ cs.map Cmap.Conn.fd := by
      intro hm
      obtain ⟨c, hc, hcf⟩ := List.mem_map.1 hm
      have := (Cmap.get_holds h.holds h.fds fd c).2 ⟨hc, hcf⟩
      rw [hg] at this
      simp at this
    have hother : ∀ x kx, s.heap x = some kx → kx.fd ≠ fd := by
      intro x kx hx hf
      exact hnot (List.mem_map.2 ⟨_, h.mem x kx hx, hf⟩)
    simp only []
    by_cases hl : lst fd = true
    · rw [if_pos hl]; exact ⟨_, cs, rfl, h1⟩
    · rw [if_neg hl]
      by_cases ha : o.admit = false
      · rw [if_pos ha]
        refine ⟨_, cs, rfl, ⟨h1.holds, h1.fds, h1.ids, h1.mem, h1.count, ?_, h1.alive, h1.nodup, h1.evnodup, ?_, h1.room, ?_, ?_, ?_, ?_, h1.total⟩⟩
        · intro x kx hx
          exact (h1.conn x kx hx).frame (Nat.le_refl _) (Function.update_of_ne (hother x kx hx) _ _) (Function.update_of_ne (hother x kx hx) _ _)
            Iff.rfl Iff.rfl Iff.rfl Iff.rfl Iff.rfl (fun _ a => a)
        · intro x hx
          have : x ≠ fd := by rintro rfl; exact hfdl hx
          show update s.reg fd none x ≠ none
          rw [Function.update_of_ne this]
          exact h1.evreg x hx
        · simp only [Empty, hpc]
        · intro x hx
          replace hx : update s.reg fd none x ≠ none := hx
          by_cases hxe : x = fd
          · subst hxe; simp at hx
          · rw [Function.update_of_ne hxe] at hx
            show update s.isopen fd false x = true
            rw [Function.update_of_ne hxe]
            exact h.regopen x hx
        · intro x hx hnx
          replace hx : update s.isopen fd false x = true := hx
          by_cases hxe : x = fd
          · subst hxe; simp at hx
          · rw [Function.update_of_ne hxe] at hx
            show update s.reg fd none x = _
            rw [Function.update_of_ne hxe]
            exact h.waiting x hx hnx
        · intro x hx
          have : x ≠ fd := by rintro rfl; exact hl hx
          show update s.isopen fd false x = true
          rw [Function.update_of_ne this]
          exact h.listen x hx
      · rw [if_neg ha]
        have hopen : s.isopen fd = true := h.regopen fd hreg
        have hnb : s.next ∉ busy s := by
          intro hm
          obtain ⟨k, hk⟩ := h.alive _ hm
          have := (h.conn _ _ hk).fresh
          omega
        have hnew : ∀ x kx, s.heap x = some kx → x ≠ s.next := by
          rintro x kx hx rfl
          have := (h.conn _ _ hx).fresh
          omega
        have hinv : Inv cap lst hash { s with events := l, heap := update s.heap s.next (some ⟨fd, false, [], none, 0⟩), table := Cmap.insert hash s.table ⟨fd, s.next⟩, next := s.next + 1, nconns := s.nconns + 1, log := s.log ++ [.opened s.next] } (⟨fd, s.next⟩ :: cs) := by
          refine ⟨Cmap.insert_holds h.holds _, by rw [List.map_cons, List.nodup_cons]; exact ⟨hnot, h.fds⟩, ?_, ?_, by rw [List.length_cons, ← h.count], ?_, ?_,
            h1.nodup, h1.evnodup, h1.evreg, h1.room, ?_, h1.regopen, ?_, h1.listen, by rw [counted_append]; exact h1.total⟩
          · intro c hc
            rcases List.mem_cons.1 hc with rfl | hc
            · exact ⟨⟨fd, false, [], none, 0⟩, by simp, rfl⟩
            · obtain ⟨k, hk, hkf⟩ := h.ids c hc
              exact ⟨k, by show update s.heap _ _ _ = _; rw [Function.update_of_ne (hnew _ _ hk)]; exact hk, hkf⟩
          · intro x kx hx
            replace hx : update s.heap s.next (some ⟨fd, false, [], none, 0⟩) x = some kx := hx
            by_cases hxe : x = s.next
            · subst hxe
              simp only [Function.update_self, Option.some.injEq] at hx
              subst hx
              exact List.mem_cons_self
            · rw [Function.update_of_ne hxe] at hx
              exact List.mem_cons_of_mem _ (h.mem x kx hx)
          · intro x kx hx
            replace hx : update s.heap s.next (some ⟨fd, false, [], none, 0⟩) x = some kx := hx
            by_cases hxe : x = s.next
            · subst hxe
              simp only [Function.update_self, Option.some.injEq] at hx
              subst hx
              simp only [busy, List.mem_append, not_or] at hnb
              refine ⟨Nat.lt_succ_self _, hopen, by simpa using hl, h.waiting fd hopen hnot, fun a => absurd a hnb.1.1.1.1, fun a => absurd a hnb.1.1.1.2, fun a => absurd a hnb.1.1.2,
                fun a => absurd a hnb.1.2, fun a => absurd a hnb.2, fun _ _ => ⟨rfl, rfl⟩, fun a => absurd a hfdl, rfl⟩
            · rw [Function.update_of_ne hxe] at hx
              exact (h1.conn x kx hx).frame (Nat.le_succ _) rfl rfl Iff.rfl Iff.rfl Iff.rfl Iff.rfl Iff.rfl (fun _ a => a)
          · intro x hx
            obtain ⟨kx, hkx⟩ := h.alive x hx
            exact ⟨kx, by show update s.heap _ _ _ = _; rw [Function.update_of_ne (hnew _ _ hkx)]; exact hkx⟩
          · simp only [Empty, hpc]
          · intro x hx hnx
            rw [List.map_cons, List.mem_cons, not_or] at hnx
            exact h.waiting x hx hnx.2
        obtain ⟨s', a, b⟩ := sort_inv hinv (id := s.next) (k := ⟨fd, false, [], none, 0⟩) (by simp) hnb hfdl (by show l.length + (busy s).length < cap; omega) hpc hreg
        exact ⟨s', _, a, b⟩

theorem attach_inv {s : S} {cs : List Cmap.Conn} (h : Inv cap lst hash s cs) (hpc : s.pc = .attach) {id : Nat} {l : List Nat} (he : s.qattachs = id :: l)
    (o : Orc) (ho : Op.count ∉ o.ops) : ∃ s', attachStep cap o s id l = .ok s' ∧ Inv cap lst hash s' cs := by
  obtain ⟨k, hk⟩ := h.alive id (by simp [busy, he])
  have hc := h.conn id k hk
  have hbg := hc.attach (by simp [he])
  have hev : s.events = [] := by have := h.empty; simp only [Empty, hpc] at this; exact this
  have hnd := h.nodup
  have hroom := h.room
  have hnot : id ∉ l ++ s.qreads ++ s.qins.map (·.1) ++ s.qouts ++ s.qcloses := by
    rw [busy, he] at hnd
    simp only [List.cons_append, List.nodup_cons] at hnd
    exact hnd.1
  have hnot' := hnot
  simp only [List.mem_append, not_or] at hnot'
  obtain ⟨⟨⟨⟨n1, n2⟩, n3⟩, n4⟩, n5⟩ := hnot'
  obtain ⟨k1, w, l1, e1, e2, e3, e4, e5, e6⟩ := runOps_ok (id := id) o.ops (k := k) (w := s.reg k.fd) (l := []) hc.reg
  replace e6 : counted l1 = 0 := e6 ho
  have hb1 : k1.bg = some true := by rw [e5 (by simp [hbg]), hbg]
  have hw : w = some .write := by rw [e3, hb1]; rfl
  obtain ⟨f1, f2, f3, f4⟩ := flush_fd id o.sent { k1 with bg := none }
  have hst : k1.stat = 0 := by rw [e6, hc.stat] at e4; exact e4
  have htot : counted (s.log ++ l1 ++ (flush id o.sent { k1 with bg := none }).2) = s.glob + s.sum := by
    rw [counted_append, counted_append, e6, flush_counted]; exact h.total
  unfold attachStep
  simp only [hk, hbg, e1, hw, ne_eq, not_true_eq_false, if_false]
  by_cases hcl : (flush id o.sent { k1 with bg := none }).1.closed = true
  · have hl : s.qcloses.length < cap := by rw [busy, he] at hroom; simp only [List.length_append, List.length_cons] at hroom; omega
    rw [if_pos hcl, if_pos hl]
    refine ⟨_, rfl, h.touch hk (k' := (flush id o.sent { k1 with bg := none }).1) (by rw [f1]; exact e2) rfl rfl rfl rfl rfl (by rw [f2]; rfl) (fun _ a => a) h.evnodup
      (by show k.fd ∉ s.events; simp [hev]) ?_ ?_ ?_ ?_ ?_ htot⟩
    · intro x hx; simp [hx, he]
    · refine ⟨hc.fresh, ?_, ?_, ?_, fun a => absurd a n1, fun a => absurd a n2, fun a => absurd a n3, fun a => absurd a n4, fun _ => ⟨f2, f3⟩, fun a => ?_, fun a => ?_, ?_⟩
      · rw [f1]; show s.isopen k1.fd = true; rw [e2]; exact hc.isopen
      · rw [f1]; show lst k1.fd = false; rw [e2]; exact hc.lst
      · rw [f1, f2]; show update s.reg k.fd (some .read) k1.fd = _; rw [e2]; simp [wants]
      · exact absurd (by simp [busy]) a
      · replace a : _ ∈ s.events := a
        simp [hev] at a
      · rw [f4]; exact hst
    · have hp : (busy { s with qattachs := l, heap := update s.heap id (some (flush id o.sent { k1 with bg := none }).1), reg := update s.reg k.fd (some .read), log := s.log ++ l1 ++ (flush id o.sent { k1 with bg := none }).2, qcloses := s.qcloses ++ [id] }).Perm (busy s) := by
        rw [List.perm_iff_count]; intro a; simp only [busy, he, List.count_append, List.count_cons, List.count_nil]; omega
      exact hp.nodup_iff.2 hnd
    · rw [busy, he] at hroom
      simp only [busy, List.length_append, List.length_cons, List.length_nil] at hroom ⊢
      omega
    · simp only [Empty, hpc]; exact hev
  · have hl : s.qreads.length < cap := by rw [busy, he] at hroom; simp only [List.length_append, List.length_cons] at hroom; omega
    rw [if_neg hcl, if_pos hl]
    refine ⟨_, rfl, h.touch hk (k' := (flush id o.sent { k1 with bg := none }).1) (by rw [f1]; exact e2) rfl rfl rfl rfl rfl (by rw [f2]; rfl) (fun _ a => a) h.evnodup
      (by show k.fd ∉ s.events; simp [hev]) ?_ ?_ ?_ ?_ ?_ htot⟩
    · intro x hx; simp [hx, he]
    · refine ⟨hc.fresh, ?_, ?_, ?_, fun a => absurd a n1, fun _ => ⟨f2, f3, by simpa using hcl⟩, fun a => absurd a n3, fun a => absurd a n4, fun a => absurd a n5, fun a => ?_, fun a => ?_, ?_⟩
      · rw [f1]; show s.isopen k1.fd = true; rw [e2]; exact hc.isopen
      · rw [f1]; show lst k1.fd = false; rw [e2]; exact hc.lst
      · rw [f1, f2]; show update s.reg k.fd (some .read) k1.fd = _; rw [e2]; simp [wants]
      · exact absurd (by simp [busy]) a
      · replace a : _ ∈ s.events := a
        simp [hev] at a
      · rw [f4]; exact hst
    · have hp : (busy { s with qattachs := l, heap := update s.heap id (some (flush id o.sent { k1 with bg := none }).1), reg := update s.reg k.fd (some .read), log := s.log ++ l1 ++ (flush id o.sent { k1 with bg := none }).2, qreads := s.qreads ++ [id] }).Perm (busy s) := by
        rw [List.perm_iff_count]; intro a; simp only [busy, he, List.count_append, List.count_cons, List.count_nil]; omega
      exact hp.nodup_iff.2 hnd
    · rw [busy, he] at hroom
      simp only [busy, List.length_append, List.length_cons, List.length_nil] at hroom ⊢
      omega
    · simp only [Empty, hpc]; exact hev

theorem read_inv {s : S} {cs : List Cmap.Conn} (h : Inv cap lst hash s cs) (hpc : s.pc = .read) {id : Nat} {l : List Nat} (he : s.qreads = id :: l)
    (o : Orc) : ∃ s', readStep cap o s id l = .ok s' ∧ Inv cap lst hash s' cs := by
  obtain ⟨k, hk⟩ := h.alive id (by simp [busy, he])
  have hc := h.conn id k hk
  obtain ⟨hbg, hout, hcl⟩ := hc.reads (by simp [he])
  obtain ⟨hev, hqa⟩ : s.events = [] ∧ s.qattachs = [] := by have := h.empty; simp only [Empty, hpc] at this; exact this
  have hnd := h.nodup
  have hroom := h.room
  have hnot : id ∉ l ++ s.qins.map (·.1) ++ s.qouts ++ s.qcloses := by
    rw [busy, he, hqa] at hnd
    simp only [List.cons_append, List.nil_append, List.nodup_cons] at hnd
    exact hnd.1
  simp only [List.mem_append, not_or] at hnot
  obtain ⟨⟨⟨n2, n3⟩, n4⟩, n5⟩ := hnot
  have n1 : id ∉ s.qattachs := by simp [hqa]
  have hreg : s.reg = update s.reg k.fd (wants k.bg) := by rw [← hc.reg]; exact update_id _ _
  have hheap : s.heap = update s.heap id (some k) := (update_id s.heap id).trans (by rw [hk])
  have hl1 : s.qcloses.length < cap := by rw [busy, he] at hroom; simp only [List.length_append, List.length_cons] at hroom; omega
  have hl2 : s.qins.length < cap := by rw [busy, he] at hroom; simp only [List.length_append, List.length_cons, List.length_map] at hroom; omega
  unfold readStep
  have hg : ¬ (k.out ≠ [] ∨ k.bg ≠ none) := by simp [hout, hbg]
  simp only [hk, if_neg hg]
  have hin : ∀ d : Bytes, ∃ s', (if s.qins.length < cap then Res.ok { s with qreads := l, qins := s.qins ++ [(id, d)], log := s.log ++ [.read id d] } else .ub) = .ok s' ∧
      Inv cap lst hash s' cs := by
    intro d
    rw [if_pos hl2]
    refine ⟨_, rfl, h.touch hk (k' := k) rfl hheap rfl rfl rfl rfl hreg (fun _ a => a) h.evnodup (by show k.fd ∉ s.events; simp [hev]) ?_ ?_ ?_ ?_ ?_ (by rw [counted_append]; exact h.total)⟩
    · intro x hx; simp [hx, he]
    · refine ⟨hc.fresh, hc.isopen, hc.lst, hc.reg, fun a => absurd a n1, fun a => absurd a n2, fun _ => ⟨hbg, hout, hcl⟩, fun a => absurd a n4, fun a => absurd a n5, fun _ _ => ⟨hout, hcl⟩, fun a => ?_, hc.stat⟩
      replace a : _ ∈ s.events := a
      simp [hev] at a
    · have hp : (busy { s with qreads := l, qins := s.qins ++ [(id, d)], log := s.log ++ [.read id d] }).Perm (busy s) := by
        rw [List.perm_iff_count]; intro a; simp only [busy, he, List.count_append, List.count_cons, List.count_nil, List.map_append, List.map_cons, List.map_nil]; omega
      exact hp.nodup_iff.2 hnd
    · rw [busy, he] at hroom
      simp only [busy, List.length_append, List.length_cons, List.length_nil, List.map_append, List.map_cons, List.map_nil] at hroom ⊢
      omega
    · simp only [Empty, hpc]; exact ⟨hev, hqa⟩
  cases o.rd with
  | data d => exact hin d
  | again => exact hin []
  | stop =>
    simp only [if_pos hl1]
    refine ⟨_, rfl, h.touch hk (k' := k) rfl hheap rfl rfl rfl rfl hreg (fun _ a => a) h.evnodup (by show k.fd ∉ s.events; simp [hev]) ?_ ?_ ?_ ?_ ?_ h.total⟩
    · intro x hx; simp [hx, he]
    · refine ⟨hc.fresh, hc.isopen, hc.lst, hc.reg, fun a => absurd a n1, fun a => absurd a n2, fun a => absurd a n3, fun a => absurd a n4, fun _ => ⟨hbg, hout⟩, fun _ _ => ⟨hout, hcl⟩, fun a => ?_, hc.stat⟩
      replace a : _ ∈ s.events := a
      simp [hev] at a
    · have hp : (busy { s with qreads := l, qcloses := s.qcloses ++ [id] }).Perm (busy s) := by
        rw [List.perm_iff_count]; intro a; simp only [busy, he, List.count_append, List.count_cons, List.count_nil]; omega
      exact hp.nodup_iff.2 hnd
    · rw [busy, he] at hroom
      simp only [busy, List.length_append, List.length_cons, List.length_nil] at hroom ⊢
      omega
    · simp only [Empty, hpc]; exact ⟨hev, hqa⟩

theorem process_inv {s : S} {cs : List Cmap.Conn} (h : Inv cap lst hash s cs) (hpc : s.pc = .process) {id : Nat} {d : Bytes} {l : List (Nat × Bytes)}
    (he : s.qins = (id, d) :: l) (o : Orc) : ∃ s', processStep cap o s id d l = .ok s' ∧ Inv cap lst hash s' cs := by
  obtain ⟨k, hk⟩ := h.alive id (by simp [busy, he])
  have hc := h.conn id k hk
  obtain ⟨hev, hqa, hqr⟩ : s.events = [] ∧ s.qattachs = [] ∧ s.qreads = [] := by have := h.empty; simp only [Empty, hpc] at this; exact this
  have hnd := h.nodup
  have hroom := h.room
  rw [busy, he, hqa, hqr] at hnd hroom
  simp only [List.map_cons, List.cons_append, List.nil_append, List.nodup_cons] at hnd
  simp only [List.map_cons, List.cons_append, List.nil_append, List.length_cons, List.length_append, List.length_map, hev, List.length_nil] at hroom
  obtain ⟨hnot, hnd⟩ := hnd
  simp only [List.mem_append, not_or] at hnot
  obtain ⟨⟨n3, n4⟩, n5⟩ := hnot
  have n1 : id ∉ s.qattachs := by simp [hqa]
  have n2 : id ∉ s.qreads := by simp [hqr]
  obtain ⟨k1, w, l1, e1, e2, e3, e4, -, -⟩ := runOps_ok (id := id) o.ops (k := k) (w := s.reg k.fd) (l := [.data id d]) hc.reg
  rw [hc.stat, Nat.zero_add, show counted [.data id d] = 0 from rfl, Nat.add_zero] at e4
  have ho1 : s.isopen k1.fd = true := by rw [e2]; exact hc.isopen
  have ho2 : lst k1.fd = false := by rw [e2]; exact hc.lst
  have ho3 : update s.reg k.fd w k1.fd = wants k1.bg := by rw [e2, ← e3]; simp
  have hevk : ∀ {P : Prop}, k1.fd ∈ s.events → P := fun a => by simp [hev] at a
  have htot : counted (s.log ++ l1) = s.glob + (s.sum + k1.stat) := by rw [counted_append, h.total, e4]; omega
  have hl1 : s.qcloses.length < cap := by omega
  have hl2 : s.qouts.length < cap := by omega
  unfold processStep
  simp only [hk, e1]
  have quiet : ∀ q, q = { s with qins := l, heap := update s.heap id (some { k1 with stat := 0 }), reg := update s.reg k.fd w, log := s.log ++ l1, sum := s.sum + k1.stat } →
      (k1.bg = none → k1.out = [] ∧ k1.closed = false) → Inv cap lst hash q cs := by
    rintro q rfl hq
    refine h.touch hk (k' := { k1 with stat := 0 }) e2 rfl rfl rfl rfl rfl (by rw [e3]) (fun _ a => a) h.evnodup (by show k.fd ∉ s.events; simp [hev]) ?_ ?_ ?_ ?_ ?_ htot
    · intro x hx; simp [hx, he]
    · exact ⟨hc.fresh, ho1, ho2, ho3, fun a => absurd a n1, fun a => absurd a n2, fun a => absurd a n3, fun a => absurd a n4, fun a => absurd a n5, fun _ => hq, hevk, rfl⟩
    · simpa [busy, hqa, hqr] using hnd
    · simp [busy, hqa, hqr, hev]; omega
    · simp only [Empty, hpc]; exact ⟨hev, hqa, hqr⟩
  by_cases hb : k1.bg = none
  · rw [if_neg (by simp [hb])]
    by_cases ho : k1.out = []
    · rw [if_neg (by simp [ho])]
      by_cases hcl : k1.closed = true
      · rw [if_pos hcl, if_pos hl1]
        refine ⟨_, rfl, h.touch hk (k' := { k1 with stat := 0 }) e2 rfl rfl rfl rfl rfl (by rw [e3]) (fun _ a => a) h.evnodup (by show k.fd ∉ s.events; simp [hev]) ?_ ?_ ?_ ?_ ?_ htot⟩
        · intro x hx; simp [hx, he]
        · exact ⟨hc.fresh, ho1, ho2, ho3, fun a => absurd a n1, fun a => absurd a n2, fun a => absurd a n3, fun a => absurd a n4, fun _ => ⟨hb, ho⟩, fun a => absurd (by simp [busy]) a, hevk, rfl⟩
        · have hp : (List.map (·.1) l ++ s.qouts ++ (s.qcloses ++ [id])).Perm (id :: (List.map (·.1) l ++ s.qouts ++ s.qcloses)) := by
            rw [List.perm_iff_count]; intro a; simp only [List.count_append, List.count_cons, List.count_nil]; omega
          simp only [busy, hqa, hqr, List.nil_append]
          rw [hp.nodup_iff, List.nodup_cons]
          exact ⟨by simp only [List.mem_append, not_or]; exact ⟨⟨n3, n4⟩, n5⟩, hnd⟩
        · simp [busy, hqa, hqr, hev]; omega
        · simp only [Empty, hpc]; exact ⟨hev, hqa, hqr⟩
      · rw [if_neg hcl]
        exact ⟨_, rfl, quiet _ rfl fun _ => ⟨ho, by simpa using hcl⟩⟩
    · rw [if_pos ho, if_pos hl2]
      refine ⟨_, rfl, h.touch hk (k' := { k1 with stat := 0 }) e2 rfl rfl rfl rfl rfl (by rw [e3]) (fun _ a => a) h.evnodup (by show k.fd ∉ s.events; simp [hev]) ?_ ?_ ?_ ?_ ?_ htot⟩
      · intro x hx; simp [hx, he]
      · exact ⟨hc.fresh, ho1, ho2, ho3, fun a => absurd a n1, fun a => absurd a n2, fun a => absurd a n3, fun _ => hb, fun a => absurd a n5, fun a => absurd (by simp [busy]) a, hevk, rfl⟩
      · have hp : (List.map (·.1) l ++ (s.qouts ++ [id]) ++ s.qcloses).Perm (id :: (List.map (·.1) l ++ s.qouts ++ s.qcloses)) := by
          rw [List.perm_iff_count]; intro a; simp only [List.count_append, List.count_cons, List.count_nil]; omega
        simp only [busy, hqa, hqr, List.nil_append]
        rw [hp.nodup_iff, List.nodup_cons]
        exact ⟨by simp only [List.mem_append, not_or]; exact ⟨⟨n3, n4⟩, n5⟩, hnd⟩
      · simp [busy, hqa, hqr, hev]; omega
      · simp only [Empty, hpc]; exact ⟨hev, hqa, hqr⟩
  · rw [if_pos hb]
    exact ⟨_, rfl, quiet _ rfl fun a => absurd a hb⟩

theorem write_inv {s : S} {cs : List Cmap.Conn} (h : Inv cap lst hash s cs) (hpc : s.pc = .write) {id : Nat} {l : List Nat} (he : s.qouts = id :: l)
    (o : Orc) : ∃ s', writeStep cap o s id l = .ok s' ∧ Inv cap lst hash s' cs := by
  obtain ⟨k, hk⟩ := h.alive id (by simp [busy, he])
  have hc := h.conn id k hk
  have hbg := hc.outs (by simp [he])
  obtain ⟨hev, hqa, hqr, hqi⟩ : s.events = [] ∧ s.qattachs = [] ∧ s.qreads = [] ∧ s.qins = [] := by have := h.empty; simp only [Empty, hpc] at this; exact this
  have hnd := h.nodup
  have hroom := h.room
  rw [busy, he, hqa, hqr, hqi] at hnd hroom
  simp only [List.map_nil, List.nil_append, List.cons_append, List.nodup_cons] at hnd
  simp only [List.map_nil, List.nil_append, List.cons_append, List.length_cons, List.length_append, hev, List.length_nil] at hroom
  obtain ⟨hnot, hnd⟩ := hnd
  have hnot' := hnot
  simp only [List.mem_append, not_or] at hnot'
  obtain ⟨n4, n5⟩ := hnot'
  have n1 : id ∉ s.qattachs := by simp [hqa]
  have n2 : id ∉ s.qreads := by simp [hqr]
  have n3 : id ∉ s.qins.map (·.1) := by simp [hqi]
  obtain ⟨f1, f2, f3, f4⟩ := flush_fd id o.sent k
  have hreg : s.reg = update s.reg k.fd (wants (flush id o.sent k).1.bg) := by rw [f2, ← hc.reg]; exact update_id _ _
  have ho1 : s.isopen (flush id o.sent k).1.fd = true := by rw [f1]; exact hc.isopen
  have ho2 : lst (flush id o.sent k).1.fd = false := by rw [f1]; exact hc.lst
  have ho3 : s.reg (flush id o.sent k).1.fd = wants (flush id o.sent k).1.bg := by rw [f1, f2]; exact hc.reg
  have hevk : ∀ {P : Prop}, (flush id o.sent k).1.fd ∈ s.events → P := fun a => by simp [hev] at a
  have hl1 : s.qcloses.length < cap := by omega
  unfold writeStep
  simp only [hk]
  by_cases hcl : (flush id o.sent k).1.closed = true
  · rw [if_pos hcl, if_pos hl1]
    refine ⟨_, rfl, h.touch hk (k' := (flush id o.sent k).1) f1 rfl rfl rfl rfl rfl hreg (fun _ a => a) h.evnodup (by show k.fd ∉ s.events; simp [hev]) ?_ ?_ ?_ ?_ ?_ (by rw [counted_append, flush_counted]; exact h.total)⟩
    · intro x hx; simp [hx, he]
    · exact ⟨hc.fresh, ho1, ho2, ho3, fun a => absurd a n1, fun a => absurd a n2, fun a => absurd a n3, fun a => absurd a n4, fun _ => ⟨f2.trans hbg, f3⟩, fun a => absurd (by simp [busy]) a, hevk, f4.trans hc.stat⟩
    · have hp : (l ++ (s.qcloses ++ [id])).Perm (id :: (l ++ s.qcloses)) := by
        rw [List.perm_iff_count]; intro a; simp only [List.count_append, List.count_cons, List.count_nil]; omega
      simp only [busy, hqa, hqr, hqi, List.nil_append, List.map_nil]
      rw [hp.nodup_iff, List.nodup_cons]
      exact ⟨hnot, hnd⟩
    · simp [busy, hqa, hqr, hqi, hev]; omega
    · simp only [Empty, hpc]; exact ⟨hev, hqa, hqr, hqi⟩
  · rw [if_neg hcl]
    refine ⟨_, rfl, h.touch hk (k' := (flush id o.sent k).1) f1 rfl rfl rfl rfl rfl hreg (fun _ a => a) h.evnodup (by show k.fd ∉ s.events; simp [hev]) ?_ ?_ ?_ ?_ ?_ (by rw [counted_append, flush_counted]; exact h.total)⟩
    · intro x hx; simp [hx, he]
    · exact ⟨hc.fresh, ho1, ho2, ho3, fun a => absurd a n1, fun a => absurd a n2, fun a => absurd a n3, fun a => absurd a n4, fun a => absurd a n5, fun _ _ => ⟨f3, by simpa using hcl⟩, hevk, f4.trans hc.stat⟩
    · simpa [busy, hqa, hqr, hqi] using hnd
    · simp [busy, hqa, hqr, hqi, hev]; omega
    · simp only [Empty, hpc]; exact ⟨hev, hqa, hqr, hqi⟩

theorem bucket_mem {m : Cmap.Map} {cs : List Cmap.Conn} (h : Cmap.Holds hash m cs) {c : Cmap.Conn} (hc : c ∈ cs) :
    c ∈ m.buckets.getD (Cmap.idx hash m.buckets.length c.fd) [] := by
  have hm := (h.mem.mem_iff (a := c)).2 hc
  obtain ⟨b, hb, hcb⟩ := List.mem_flatten.1 hm
  obtain ⟨i, hi⟩ := List.getElem?_of_mem hb
  rw [h.place i b hi c hcb, Cmap.getD_eq hi]
  exact hcb

theorem close_inv {s : S} {cs : List Cmap.Conn} (h : Inv cap lst hash s cs) (hpc : s.pc = .close) {id : Nat} {l : List Nat} (he : s.qcloses = id :: l) :
    ∃ s' cs', closeStep hash s id l = .ok s' ∧ Inv cap lst hash s' cs' := by
  obtain ⟨k, hk⟩ := h.alive id (by simp [busy, he])
  have hc := h.conn id k hk
  have hmem := h.mem id k hk
  obtain ⟨hbg, hout⟩ := hc.closes (by simp [he])
  obtain ⟨hev, hqa, hqr, hqi, hqo⟩ : s.events = [] ∧ s.qattachs = [] ∧ s.qreads = [] ∧ s.qins = [] ∧ s.qouts = [] := by
    have := h.empty; simp only [Empty, hpc] at this; exact this
  have hnd := h.nodup
  have hroom := h.room
  rw [busy, he, hqa, hqr, hqi, hqo] at hnd hroom
  simp only [List.map_nil, List.nil_append, List.append_nil, List.nodup_cons] at hnd
  simp only [List.map_nil, List.nil_append, List.append_nil, List.length_cons, hev, List.length_nil] at hroom
  obtain ⟨hnot, hnd⟩ := hnd
  have hcsn : cs.Nodup := (List.Pairwise.of_map (S := (· ≠ ·)) (R := (· ≠ ·)) Cmap.Conn.fd (fun a b hab e => hab (by rw [e])) h.fds)
  have hid : ∀ {x kx}, s.heap x = some kx → x ≠ id → kx.fd ≠ k.fd := fun hx hi he => hi (h.inj hx hk he)
  unfold closeStep
  simp only [hk]
  rw [if_neg (by simp [hbg]), if_neg (by simpa using bucket_mem h.holds hmem)]
  have hbs : busy { s with qcloses := l, heap := update s.heap id none, table := Cmap.delete hash s.table ⟨k.fd, id⟩, nconns := s.nconns - 1, isopen := update s.isopen k.fd false, reg := update s.reg k.fd none, log := s.log ++ [.closed id] } = l := by
    simp [busy, hqa, hqr, hqi, hqo]
  refine ⟨_, cs.erase ⟨k.fd, id⟩, rfl, ⟨Cmap.delete_holds h.holds hmem, (h.fds.sublist (List.erase_sublist.map _)), ?_, ?_, ?_, ?_, ?_, by rw [hbs]; exact hnd, h.evnodup, ?_, ?_, ?_, ?_, ?_, ?_, by rw [counted_append]; exact h.total⟩⟩
  · intro c hcm
    obtain ⟨hne, hcm⟩ := (hcsn.mem_erase_iff).1 hcm
    obtain ⟨kc, h1, h2⟩ := h.ids c hcm
    refine ⟨kc, ?_, h2⟩
    show update s.heap id none c.id = some kc
    rw [Function.update_of_ne]
    · exact h1
    · rintro rfl
      rw [hk] at h1
      simp only [Option.some.injEq] at h1
      subst h1
      exact hne (by rw [h2])
  · intro x kx hx
    replace hx : update s.heap id none x = some kx := hx
    by_cases hi : x = id
    · subst hi; simp at hx
    · rw [Function.update_of_ne hi] at hx
      rw [hcsn.mem_erase_iff]
      exact ⟨by simp [hi], h.mem x kx hx⟩
  · show s.nconns - 1 = _
    rw [List.length_erase_of_mem hmem, h.count]
  · intro x kx hx
    replace hx : update s.heap id none x = some kx := hx
    by_cases hi : x = id
    · subst hi; simp at hx
    · rw [Function.update_of_ne hi] at hx
      refine (h.conn x kx hx).frame (Nat.le_refl _) ?_ ?_ Iff.rfl Iff.rfl Iff.rfl Iff.rfl ?_ (fun _ a => a)
      · show update s.isopen _ _ _ = _; rw [Function.update_of_ne (hid hx hi)]
      · show update s.reg _ _ _ = _; rw [Function.update_of_ne (hid hx hi)]
      · show x ∈ l ↔ x ∈ s.qcloses; rw [he]; simp [hi]
  · intro x hx
    rw [hbs] at hx
    obtain ⟨kx, hkx⟩ := h.alive x (by simp [busy, he, hx])
    refine ⟨kx, ?_⟩
    show update s.heap id none x = some kx
    rw [Function.update_of_ne]
    · exact hkx
    · rintro rfl; exact hnot hx
  · intro fd hfd
    replace hfd : fd ∈ s.events := hfd
    simp [hev] at hfd
  · rw [hbs]; show s.events.length + _ ≤ cap; rw [hev]; simp only [List.length_nil]; omega
  · simp only [Empty, hpc]; exact ⟨hev, hqa, hqr, hqi, hqo⟩
  · intro fd hr
    replace hr : update s.reg k.fd none fd ≠ none := hr
    show update s.isopen k.fd false fd = true
    by_cases hf : fd = k.fd
    · subst hf; simp at hr
    · rw [Function.update_of_ne hf] at hr ⊢
      exact h.regopen fd hr
  · intro fd ho hni
    replace ho : update s.isopen k.fd false fd = true := ho
    show update s.reg k.fd none fd = _
    by_cases hf : fd = k.fd
    · subst hf; simp at ho
    · rw [Function.update_of_ne hf] at ho ⊢
      refine h.waiting fd ho fun hm => hni ?_
      obtain ⟨c, hcm, hcf⟩ := List.mem_map.1 hm
      refine List.mem_map.2 ⟨c, (hcsn.mem_erase_iff).2 ⟨?_, hcm⟩, hcf⟩
      rintro rfl
      exact hf hcf.symm
  · intro fd hl
    show update s.isopen k.fd false fd = true
    rw [Function.update_of_ne]
    · exact h.listen fd hl
    · rintro rfl
      rw [hc.lst] at hl
      simp at hl

/-- Going to the next function. -/
theorem Inv.goto {s s' : S} {cs : List Cmap.Conn} (h : Inv cap lst hash s cs) (h1 : s' = { s with pc := s'.pc }) (h2 : Empty s') : Inv cap lst hash s' cs := by
  rw [h1] at h2 ⊢
  refine ⟨h.holds, h.fds, h.ids, h.mem, h.count, ?_, h.alive, h.nodup, h.evnodup, h.evreg, h.room, h2, h.regopen, h.waiting, h.listen, h.total⟩
  intro x kx hx
  exact (h.conn x kx hx).frame (Nat.le_refl _) rfl rfl Iff.rfl Iff.rfl Iff.rfl Iff.rfl Iff.rfl (fun _ a => a)

theorem wait_inv {s : S} {cs : List Cmap.Conn} (h : Inv cap lst hash s cs) (hpc : s.pc = .wait) {ev : List Nat} (h1 : ev.length ≤ cap) (h2 : ev.Nodup)
    (h3 : ∀ fd ∈ ev, s.reg fd ≠ none) : Inv cap lst hash { s with pc := .accept, events := ev, qattachs := [], qreads := [], qins := [], qouts := [], qcloses := [] } cs := by
  obtain ⟨hev, hb, -⟩ : s.events = [] ∧ busy s = [] ∧ s.sum = 0 := by have := h.empty; simp only [Empty, hpc] at this; exact this
  refine ⟨h.holds, h.fds, h.ids, h.mem, h.count, ?_, by simp [busy], by simp [busy], h2, h3, by simpa [busy] using h1, by simp [Empty], h.regopen, h.waiting, h.listen, h.total⟩
  intro x kx hx
  have hc := h.conn x kx hx
  exact ⟨hc.fresh, hc.isopen, hc.lst, hc.reg, by simp, by simp, by simp, by simp, by simp, fun _ => hc.idle (by simp [hb]), fun _ => by simp [busy], hc.stat⟩

theorem step_inv {s : S} {cs : List Cmap.Conn} (h : Inv cap lst hash s cs) {o : Orc} (ho : o.Ok cap s) :
    ∃ s' cs', step cap lst hash o s = .ok s' ∧ Inv cap lst hash s' cs' := by
  have hem := h.empty
  unfold step
  cases hpc : s.pc with
  | top =>
    simp only [Empty, hpc] at hem
    refine ⟨_, cs, rfl, ⟨h.holds, h.fds, h.ids, h.mem, h.count, ?_, h.alive, h.nodup, h.evnodup, h.evreg, h.room, ?_, h.regopen, h.waiting, h.listen, ?_⟩⟩
    · intro x kx hx
      exact (h.conn x kx hx).frame (Nat.le_refl _) rfl rfl Iff.rfl Iff.rfl Iff.rfl Iff.rfl Iff.rfl (fun _ a => a)
    · simp only [Empty]; exact ⟨hem.1, hem.2, trivial⟩
    · exact h.total
  | wait =>
    obtain ⟨h1, h2, h3⟩ := ho.1 hpc
    exact ⟨_, cs, rfl, wait_inv h hpc h1 h2 h3⟩
  | accept =>
    cases he : s.events with
    | nil => exact ⟨_, cs, rfl, h.goto (by rw [he]) (by simp [Empty])⟩
    | cons fd l => exact accept_inv h hpc he o
  | attach =>
    simp only [Empty, hpc] at hem
    cases he : s.qattachs with
    | nil => exact ⟨_, cs, rfl, h.goto (by rw [he]) (by simp [Empty, busy, hem])⟩
    | cons id l =>
      obtain ⟨s', a, b⟩ := attach_inv h hpc he o (ho.2 hpc)
      exact ⟨s', cs, a, b⟩
  | read =>
    simp only [Empty, hpc] at hem
    cases he : s.qreads with
    | nil => exact ⟨_, cs, rfl, h.goto (by rw [he]) (by simp [Empty, busy, hem])⟩
    | cons id l =>
      obtain ⟨s', a, b⟩ := read_inv h hpc he o
      exact ⟨s', cs, a, b⟩
  | process =>
    simp only [Empty, hpc] at hem
    cases he : s.qins with
    | nil => exact ⟨_, cs, rfl, h.goto (by rw [he]) (by simp [Empty, busy, hem])⟩
    | cons x l =>
      obtain ⟨s', a, b⟩ := process_inv h hpc he o
      exact ⟨s', cs, a, b⟩
  | write =>
    simp only [Empty, hpc] at hem
    cases he : s.qouts with
    | nil => exact ⟨_, cs, rfl, h.goto (by rw [he]) (by simp [Empty, busy, hem])⟩
    | cons id l =>
      obtain ⟨s', a, b⟩ := write_inv h hpc he o
      exact ⟨s', cs, a, b⟩
  | close =>
    simp only [Empty, hpc] at hem
    cases he : s.qcloses with
    | nil => exact ⟨_, cs, rfl, h.goto (by rw [he]) (by simp [Empty, busy, hem])⟩
    | cons id l => exact close_inv h hpc he

theorem env_inv {s : S} {cs : List Cmap.Conn} (h : Inv cap lst hash s cs) {e : Env} (he : e.Ok s) :
    ∃ s', envStep e s = .ok s' ∧ Inv cap lst hash s' cs := by
  cases e with
  | accepted fd =>
    have hno : s.isopen fd = false := he
    have hother : ∀ x kx, s.heap x = some kx → kx.fd ≠ fd := by
      rintro x kx hx rfl
      rw [(h.conn x kx hx).isopen] at hno
      simp at hno
    refine ⟨_, rfl, ⟨h.holds, h.fds, h.ids, h.mem, h.count, ?_, h.alive, h.nodup, h.evnodup, ?_, h.room, h.empty, ?_, ?_, ?_, h.total⟩⟩
    · intro x kx hx
      exact (h.conn x kx hx).frame (Nat.le_refl _) (Function.update_of_ne (hother x kx hx) _ _) (Function.update_of_ne (hother x kx hx) _ _)
        Iff.rfl Iff.rfl Iff.rfl Iff.rfl Iff.rfl (fun _ a => a)
    · intro x hx
      show update s.reg fd (some .read) x ≠ none
      by_cases hf : x = fd
      · subst hf; simp
      · rw [Function.update_of_ne hf]; exact h.evreg x hx
    · intro x hx
      replace hx : update s.reg fd (some .read) x ≠ none := hx
      show update s.isopen fd true x = true
      by_cases hf : x = fd
      · subst hf; simp
      · rw [Function.update_of_ne hf] at hx ⊢; exact h.regopen x hx
    · intro x hx hn
      replace hx : update s.isopen fd true x = true := hx
      show update s.reg fd (some .read) x = _
      by_cases hf : x = fd
      · subst hf; simp
      · rw [Function.update_of_ne hf] at hx ⊢; exact h.waiting x hx hn
    · intro x hx
      show update s.isopen fd true x = true
      by_cases hf : x = fd
      · subst hf; simp
      · rw [Function.update_of_ne hf]; exact h.listen x hx
  | finished id =>
    obtain ⟨k, hk, hb⟩ := he
    have hc := h.conn id k hk
    have hr : s.reg k.fd = none := by rw [hc.reg, hb]; rfl
    unfold envStep
    simp only [hk, hr, ne_eq, not_true_eq_false, if_false]
    have hnb : id ∉ busy s := by
      simp only [busy, List.mem_append, not_or]
      exact ⟨⟨⟨⟨fun a => by simp [hc.attach a] at hb, fun a => by simp [(hc.reads a).1] at hb⟩, fun a => by simp [(hc.ins a).1] at hb⟩,
        fun a => by simp [hc.outs a] at hb⟩, fun a => by simp [(hc.closes a).1] at hb⟩
    have hnb' := hnb
    simp only [busy, List.mem_append, not_or] at hnb'
    obtain ⟨⟨⟨⟨n1, n2⟩, n3⟩, n4⟩, n5⟩ := hnb'
    refine ⟨_, rfl, h.touch hk (k' := { k with bg := some true }) rfl rfl rfl rfl rfl rfl rfl (fun _ a => a) h.evnodup ?_ ?_ ?_ h.nodup h.room ?_ h.total⟩
    · intro hm
      exact h.evreg k.fd hm hr
    · intro x hx; exact ⟨Iff.rfl, Iff.rfl, Iff.rfl, Iff.rfl, Iff.rfl⟩
    · refine ⟨hc.fresh, hc.isopen, hc.lst, by simp [wants], fun a => absurd a n1, fun a => absurd a n2, fun a => absurd a n3, fun a => absurd a n4, fun a => absurd a n5, fun _ a => by simp at a, fun _ => hnb, hc.stat⟩
    · exact h.empty

theorem new_inv (hcap : 0 ≤ cap) : Inv cap lst hash (new lst) [] := by
  refine ⟨Cmap.empty_holds (by decide) 0, by simp, by simp, by simp [new], rfl, by simp [new], by simp [new, busy], by simp [new, busy], by simp [new],
    by simp [new], by simp [new, busy], by simp [Empty, new, busy], ?_, ?_, fun fd a => a, rfl⟩
  · intro fd hr
    simp only [new] at hr ⊢
    by_contra hc
    simp [hc] at hr
  · intro fd ho _
    simp only [new] at ho ⊢
    simp [ho]

theorem reach_inv {s : S} (h : Reach cap lst hash s) : ∃ cs, Inv cap lst hash s cs := by
  induction h with
  | new => exact ⟨[], new_inv (Nat.zero_le _)⟩
  | step o _ ho hs ih =>
    obtain ⟨cs, hi⟩ := ih
    obtain ⟨s', cs', a, b⟩ := step_inv hi ho
    rw [hs] at a
    cases a
    exact ⟨cs', b⟩
  | env e _ he hs ih =>
    obtain ⟨cs, hi⟩ := ih
    obtain ⟨s', a, b⟩ := env_inv hi he
    rw [hs] at a
    cases a
    exact ⟨cs, b⟩

end Verif.Net.Loop
