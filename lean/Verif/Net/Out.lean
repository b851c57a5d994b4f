import Mathlib.Tactic.Common
import Verif.Num.Props

/-!
C53, C65: the output buffer of a connection and its transfer to the socket, `/repo/src/net.c:283-338, 682-705` and
`/repo/src/conn.c:331-350`.

Sizes are numbers without bound; allocations succeed (`xmalloc` ends the process otherwise).
-/

namespace Verif.Net.Out

/-- `out`, `outlen` and `outcap` of `struct net_conn`, `/repo/src/net.c:258-260`.  The capacity is the length of `mem`. -/
structure Buf where
  mem : Bytes
  len : Nat

/-- The loop of `net_conn_out_ensure`, `/repo/src/net.c:288-290`. -/
def double (len amount : Nat) : Nat → Nat → Nat
  | 0, cap => cap
  | fuel + 1, cap => if cap - len < amount then double len amount fuel (cap * 2) else cap

/-- `net_conn_out_ensure`, `/repo/src/net.c:283-297`.  The new memory has unknown contents `junk`. -/
def ensure (junk : UInt8) (b : Buf) (amount : Nat) : Buf :=
  if b.mem.length - b.len ≥ amount then b
  else
    let cap := double b.len amount (amount + b.len) (if b.mem.length = 0 then 16 else b.mem.length * 2)
    ⟨b.mem.take b.len ++ List.replicate (cap - b.len) junk, b.len⟩

/-- `memcpy` to `out+outlen`; `none` if it goes beyond the capacity. -/
def put (b : Buf) (data : Bytes) : Option Buf :=
  if b.len + data.length ≤ b.mem.length then some ⟨b.mem.take b.len ++ data ++ b.mem.drop (b.len + data.length), b.len + data.length⟩ else none

/-- `net_conn_out_write_byte`, `/repo/src/net.c:303-308`. -/
def writeByte (junk : UInt8) (b : Buf) (c : UInt8) : Option Buf := put (if b.mem.length = b.len then ensure junk b 1 else b) [c]

/-- `net_conn_out_write`, `/repo/src/net.c:317-324`. -/
def write (junk : UInt8) (b : Buf) (data : Bytes) : Option Buf :=
  put (if b.mem.length - b.len < data.length then ensure junk b data.length else b) data

/-- `conn_write_bulk`, `/repo/src/conn.c:331-346`: writes behind the buffer's end and then sets the length, which must be smaller than the
capacity (`assert`, `/repo/src/net.c:335`). -/
def writeBulk (junk : UInt8) (b : Buf) (data : Bytes) : Option Buf :=
  let text := [36] ++ Num.u64toa data.length ++ [13, 10] ++ data ++ [13, 10]
  (put (ensure junk b (32 + data.length)) text).bind fun b' => if b'.len < b'.mem.length then some b' else none

/-- What is written while a connection's data is processed. -/
inductive Op where
  | byte (c : UInt8)
  | raw (data : Bytes)
  | bulk (data : Bytes)

def writeOp (junk : UInt8) (b : Buf) : Op → Option Buf
  | .byte c => writeByte junk b c
  | .raw d => write junk b d
  | .bulk d => writeBulk junk b d

def writeAll (junk : UInt8) : Buf → List Op → Option Buf
  | b, [] => some b
  | b, o :: l => (writeOp junk b o).bind fun b => writeAll junk b l

/-- What `write` to the socket may do: take some bytes (never more than given), have no room, fail. -/
inductive Answer where
  | took (n : Nat)
  | again
  | failed
deriving DecidableEq, Repr

/-- Result of `flush_conn`: everything written; the socket failed; or still in the loop after all the answers. -/
inductive End where
  | done | closed | looping
deriving DecidableEq, Repr

/-- `flush_conn`, `/repo/src/net.c:683-705`, on the bytes of the buffer behind `written`: what has reached the socket, and how it ended. -/
def flush : Bytes → List Answer → Bytes × End
  | [], _ => ([], .done)
  | _ :: _, [] => ([], .looping)
  | out, .again :: l => flush out l
  | _, .failed :: _ => ([], .closed)
  | out, .took n :: l =>
    let r := flush (out.drop n) l
    (out.take n ++ r.1, r.2)

/-- One round: the operations, and the answers of the socket when the buffer is flushed at the end. -/
structure Round where
  ops : List Op
  answers : List Answer

/-- Several rounds, `/repo/src/net.c:783-866`; the memory of the buffer is kept.  `none` if the buffer is overrun. -/
def rounds (junk : UInt8) : Bytes → List Round → Option (Bytes × End)
  | _, [] => some ([], .done)
  | mem, r :: l =>
    (writeAll junk ⟨mem, 0⟩ r.ops).bind fun b =>
      match flush (b.mem.take b.len) r.answers with
      | (sent, .done) => (rounds junk b.mem l).map fun x => (sent ++ x.1, x.2)
      | (sent, e) => some (sent, e)

/-! ### Specification -/

/-- The decimal digits of a number, without leading zeros. -/
def IsDecimal (t : Bytes) (n : Nat) : Prop :=
  t ≠ [] ∧ (∀ c ∈ t, 48 ≤ c.toNat ∧ c.toNat ≤ 57) ∧ t.foldl (fun a c => a * 10 + (c.toNat - 48)) 0 = n

/-- The text an operation stands for. -/
def Op.Text : Op → Bytes → Prop
  | .byte c, t => t = [c]
  | .raw d, t => t = d
  | .bulk d, t => ∃ n, IsDecimal n d.length ∧ t = [36] ++ n ++ [13, 10] ++ d ++ [13, 10]

/-- Objects have fewer than 2^64 bytes. -/
def Op.Small : Op → Prop
  | .bulk d => d.length < 2 ^ 64
  | _ => True

/-- The text of several operations is that of one after the other. -/
inductive Texts : List Op → Bytes → Prop
  | nil : Texts [] []
  | cons {o : Op} {l : List Op} {t ts : Bytes} : o.Text t → Texts l ts → Texts (o :: l) (t ++ ts)

/-! ### Proofs -/

theorem double_enough (len amount fuel cap : Nat) (hc : 0 < cap) (hf : amount + len ≤ fuel + cap) : amount ≤ double len amount fuel cap - len := by
  induction fuel generalizing cap with
  | zero => simp only [double]; omega
  | succ fuel ih =>
    simp only [double]
    split
    · exact ih (cap * 2) (by omega) (by omega)
    · omega

theorem double_ge (len amount fuel cap : Nat) : cap ≤ double len amount fuel cap := by
  induction fuel generalizing cap with
  | zero => exact Nat.le_refl _
  | succ fuel ih =>
    simp only [double]
    split
    · have := ih (cap * 2); omega
    · exact Nat.le_refl _

theorem ensure_spec (junk : UInt8) (b : Buf) (amount : Nat) (h : b.len ≤ b.mem.length) :
    (ensure junk b amount).len = b.len ∧ (ensure junk b amount).mem.take b.len = b.mem.take b.len ∧
      b.len + amount ≤ (ensure junk b amount).mem.length := by
  unfold ensure
  split
  · exact ⟨rfl, rfl, by omega⟩
  · simp only
    have h1 := double_enough b.len amount (amount + b.len) (if b.mem.length = 0 then 16 else b.mem.length * 2) (by split <;> omega) (by omega)
    refine ⟨trivial, ?_, ?_⟩
    · rw [List.take_append_of_le_length (by simp only [List.length_take]; omega), List.take_take, Nat.min_self]
    · simp only [List.length_append, List.length_take, List.length_replicate]
      omega

theorem put_spec {b : Buf} {data : Bytes} (h : b.len + data.length ≤ b.mem.length) :
    ∃ b', put b data = some b' ∧ b'.len = b.len + data.length ∧ b'.mem.length = b.mem.length ∧ b'.mem.take b'.len = b.mem.take b.len ++ data := by
  refine ⟨_, if_pos h, rfl, ?_, ?_⟩
  · simp only [List.length_append, List.length_take, List.length_drop]; omega
  · simp only
    rw [List.take_append_of_le_length (by simp only [List.length_append, List.length_take]; omega), List.take_of_length_le]
    simp only [List.length_append, List.length_take]; omega

/-- `b` is well formed and holds `t`. -/
def Has (b : Buf) (t : Bytes) : Prop := b.len ≤ b.mem.length ∧ b.mem.take b.len = t

theorem put_has {b b0 : Buf} {t data : Bytes} (h0 : Has b0 t) (hl : b.len = b0.len) (hm : b.mem.take b0.len = b0.mem.take b0.len)
    (hc : b.len + data.length ≤ b.mem.length) : ∃ b', put b data = some b' ∧ Has b' (t ++ data) ∧ b'.mem.length = b.mem.length ∧ b'.len = b.len + data.length := by
  obtain ⟨b', h1, h2, h3, h4⟩ := put_spec hc
  refine ⟨b', h1, ⟨by omega, ?_⟩, h3, h2⟩
  rw [h4, hl, hm, h0.2]

theorem writeOp_spec (junk : UInt8) {b : Buf} {t : Bytes} (h : Has b t) (o : Op) (hs : o.Small)
    (hdec : ∀ d, o = .bulk d → IsDecimal (Num.u64toa d.length) d.length ∧ (Num.u64toa d.length).length ≤ 20) :
    ∃ b' x, writeOp junk b o = some b' ∧ o.Text x ∧ Has b' (t ++ x) := by
  cases o with
  | byte c =>
    simp only [writeOp, writeByte]
    split
    · obtain ⟨e1, e2, e3⟩ := ensure_spec junk b 1 h.1
      obtain ⟨b', h1, h2, _⟩ := put_has (data := [c]) h e1 e2 (by simp only [List.length_singleton]; omega)
      exact ⟨b', [c], h1, rfl, h2⟩
    · obtain ⟨b', h1, h2, _⟩ := put_has (data := [c]) h rfl rfl (by have := h.1; simp only [List.length_singleton]; omega)
      exact ⟨b', [c], h1, rfl, h2⟩
  | raw d =>
    simp only [writeOp, write]
    split
    · obtain ⟨e1, e2, e3⟩ := ensure_spec junk b d.length h.1
      obtain ⟨b', h1, h2, _⟩ := put_has (data := d) h e1 e2 (by omega)
      exact ⟨b', d, h1, rfl, h2⟩
    · obtain ⟨b', h1, h2, _⟩ := put_has (data := d) h rfl rfl (by have := h.1; omega)
      exact ⟨b', d, h1, rfl, h2⟩
  | bulk d =>
    obtain ⟨hd, hl⟩ := hdec d rfl
    simp only [writeOp, writeBulk]
    obtain ⟨e1, e2, e3⟩ := ensure_spec junk b (32 + d.length) h.1
    obtain ⟨b', h1, h2, h3, h4⟩ := put_has (data := [36] ++ Num.u64toa d.length ++ [13, 10] ++ d ++ [13, 10]) h e1 e2
      (by simp only [List.length_append, List.length_cons, List.length_nil]; omega)
    rw [h1]
    simp only [Option.bind_some]
    rw [if_pos (by rw [h4, h3]; simp only [List.length_append, List.length_cons, List.length_nil]; omega)]
    exact ⟨b', _, rfl, ⟨_, hd, rfl⟩, h2⟩

theorem toa_decimal {n : Nat} (h : n < 2 ^ 64) : IsDecimal (Num.u64toa n) n ∧ (Num.u64toa n).length ≤ 20 := by
  have hd : ∀ c ∈ Num.u64toa n, 48 ≤ c.toNat ∧ c.toNat ≤ 57 := by
    intro c hc
    have := Num.u64toa_digits n c hc
    simp only [Num.isDigit, Bool.and_eq_true, decide_eq_true_eq] at this
    exact ⟨UInt8.le_iff_toNat_le.mp this.1, UInt8.le_iff_toNat_le.mp this.2⟩
  refine ⟨⟨Num.u64toa_ne_nil n, hd, ?_⟩, Num.u64toa_length_le 19 n (by omega)⟩
  have key : ∀ (t : Bytes) (a : Nat), (∀ c ∈ t, 48 ≤ c.toNat ∧ c.toNat ≤ 57) →
      t.foldl (fun a c => a * 10 + (c.toNat - 48)) a = Num.digitsVal a t := by
    intro t
    induction t with
    | nil => intro a _; rfl
    | cons c t ih =>
      intro a hc
      have h48 : (c - 48).toNat = c.toNat - 48 := by
        rw [UInt8.toNat_sub_of_le _ _ (by rw [UInt8.le_iff_toNat_le]; exact (hc c (List.mem_cons_self)).1)]; rfl
      rw [List.foldl_cons, Num.digitsVal, h48]
      exact ih _ fun c hc' => hc c (List.mem_cons_of_mem _ hc')
  rw [key _ _ hd, Num.digitsVal_u64toa]

theorem writeAll_spec (junk : UInt8) (l : List Op) : ∀ {b : Buf} {t : Bytes}, Has b t → (∀ o ∈ l, o.Small) →
    ∃ b' x, writeAll junk b l = some b' ∧ Texts l x ∧ Has b' (t ++ x) := by
  induction l with
  | nil => intro b t h _; exact ⟨b, [], rfl, .nil, by rw [List.append_nil]; exact h⟩
  | cons o l ih =>
    intro b t h hs
    obtain ⟨b1, x, h1, h2, h3⟩ := writeOp_spec junk h o (hs o List.mem_cons_self)
      (fun d hd => toa_decimal (by have := hs o List.mem_cons_self; rw [hd] at this; exact this))
    obtain ⟨b2, y, h4, h5, h6⟩ := ih h3 fun o ho => hs o (List.mem_cons_of_mem _ ho)
    refine ⟨b2, x ++ y, ?_, .cons h2 h5, by rw [← List.append_assoc]; exact h6⟩
    rw [writeAll, h1, Option.bind_some, h4]

theorem flush_prefix (l : List Answer) : ∀ out, (flush out l).1 <+: out ∧ ((flush out l).2 = .done → (flush out l).1 = out) := by
  induction l with
  | nil =>
    intro out
    cases out with
    | nil => exact ⟨List.prefix_rfl, fun _ => rfl⟩
    | cons c t => exact ⟨List.nil_prefix, fun h => by simp [flush] at h⟩
  | cons a l ih =>
    intro out
    cases out with
    | nil => exact ⟨by simp [flush], fun _ => by simp [flush]⟩
    | cons c t =>
      cases a with
      | again => simp only [flush]; exact ih _
      | failed => exact ⟨by simp [flush], fun h => by simp [flush] at h⟩
      | took n =>
        simp only [flush]
        obtain ⟨h1, h2⟩ := ih ((c :: t).drop n)
        constructor
        · obtain ⟨r, hr⟩ := h1
          exact ⟨r, by rw [List.append_assoc, hr, List.take_append_drop]⟩
        · intro h
          rw [h2 h, List.take_append_drop]

/-! ### The properties -/

/-- **C53.**  The output buffer of a connection: however replies are put together from single bytes, byte strings and bulks (so the buffer
grows as needed), however the socket takes the bytes (in pieces, refusing, failing), over any number of rounds: no write goes beyond the
buffer and no assertion fails; what has reached the socket is a prefix of the replies' text, in order, without gap or repetition; and it is all
of it unless the socket failed or is still refusing. -/
theorem replies_arrive_in_order (junk : UInt8) (mem : Bytes) (rs : List Round) (hs : ∀ r ∈ rs, ∀ o ∈ r.ops, o.Small) :
    ∃ sent e text, rounds junk mem rs = some (sent, e) ∧ Texts (rs.flatMap (·.ops)) text ∧ sent <+: text ∧ (e = .done → sent = text) := by
  have app : ∀ {l : List Op} {t : Bytes}, Texts l t → ∀ {l' : List Op} {t' : Bytes}, Texts l' t' → Texts (l ++ l') (t ++ t') := by
    intro l t h
    induction h with
    | nil => intro l' t' h'; exact h'
    | cons h1 h2 ih => intro l' t' h'; rw [List.append_assoc]; exact .cons h1 (ih h')
  induction rs generalizing mem with
  | nil => exact ⟨[], .done, [], rfl, .nil, List.prefix_rfl, fun _ => rfl⟩
  | cons r l ih =>
    obtain ⟨b, x, h1, h2, h3⟩ := writeAll_spec junk r.ops (b := ⟨mem, 0⟩) (t := []) ⟨Nat.zero_le _, rfl⟩ (hs r List.mem_cons_self)
    obtain ⟨sent, e, text, i1, i2, i3, i4⟩ := ih b.mem fun r hr => hs r (List.mem_cons_of_mem _ hr)
    obtain ⟨f1, f2⟩ := flush_prefix r.answers (b.mem.take b.len)
    rw [List.nil_append] at h3
    rw [h3.2] at f1 f2
    simp only [rounds, h1, Option.bind_some, h3.2]
    rw [List.flatMap_cons]
    rcases hf : flush x r.answers with ⟨s, e'⟩
    rw [hf] at f1 f2
    simp only at f1 f2
    cases e' with
    | done =>
      refine ⟨s ++ sent, e, x ++ text, by simp only [i1]; rfl, app h2 i2, ?_, ?_⟩
      · rw [f2 rfl]; exact (List.prefix_append_right_inj x).mpr i3
      · intro he; rw [f2 rfl, i4 he]
    | closed =>
      exact ⟨s, .closed, x ++ text, rfl, app h2 i2, f1.trans (List.prefix_append _ _), fun h => by cases h⟩
    | looping =>
      exact ⟨s, .looping, x ++ text, rfl, app h2 i2, f1.trans (List.prefix_append _ _), fun h => by cases h⟩

/-- The text of a list of operations is unique up to the spelling of lengths; here: for a reply `+OK`, then a bulk of three bytes, the buffer
grows once, and the socket takes two bytes, refuses, and takes the rest. -/
example : rounds 0 [] [⟨[.byte 43, .raw [79, 75, 13, 10], .bulk [97, 98, 99]], [.took 2, .again, .took 100]⟩] =
    some ([43, 79, 75, 13, 10, 36, 51, 13, 10, 97, 98, 99, 13, 10], .done) := by decide +kernel

example : ∀ r ∈ [(⟨[.byte 43, .raw [79, 75, 13, 10], .bulk [97, 98, 99]], [.took 2, .again, .took 100]⟩ : Round)], ∀ o ∈ r.ops, o.Small := by
  simp [Op.Small]

example : Texts [.byte 43, .bulk [97, 98, 99]] [43, 36, 51, 13, 10, 97, 98, 99, 13, 10] :=
  .cons (t := [43]) rfl (.cons (t := [36, 51, 13, 10, 97, 98, 99, 13, 10]) ⟨[51], ⟨by simp, by decide, by decide⟩, rfl⟩ .nil)

/-- A socket that fails in the middle: the prefix that had been taken. -/
example : rounds 0 [] [⟨[.raw [1, 2, 3]], [.took 2, .failed]⟩, ⟨[.raw [4]], [.took 9]⟩] = some ([1, 2], .closed) := by decide +kernel

/-! ### C65: one client must not stall the others -/

/-- The clients of one worker thread in one round, `/repo/src/net.c:856-864`: they are flushed in order.  A client whose
socket has room takes everything at once; one that does not read leaves the loop going as long as the answers given are refusals.  The
result: what each client that was reached has received. -/
def flushAll : List (Bytes × List Answer) → List Bytes
  | [] => []
  | (out, l) :: rest =>
    match flush out l with
    | (sent, .looping) => [sent]
    | (sent, _) => sent :: flushAll rest

/-- **C65, negation.**  A client that asks and does not read stalls all other clients of its thread: as long as its socket refuses (however
many times `write` is tried), the loop does not end and none of the clients behind it receives anything. -/
theorem reluctant_reader_stalls_others (out : Bytes) (k m : Nat) (hm : m < out.length) (others : List (Bytes × List Answer)) :
    flushAll ((out, .took m :: List.replicate k .again) :: others) = [out.take m] := by
  have loop : ∀ (k : Nat) (o : Bytes), o ≠ [] → flush o (List.replicate k .again) = ([], .looping) := by
    intro k
    induction k with
    | zero => intro o ho; cases o with
      | nil => exact absurd rfl ho
      | cons c t => rfl
    | succ k ih => intro o ho; cases o with
      | nil => exact absurd rfl ho
      | cons c t => rw [List.replicate_succ, flush.eq_3 _ _ (by simp)]; exact ih _ (by simp)
  have hd : out.drop m ≠ [] := by rw [Ne, List.drop_eq_nil_iff]; omega
  cases out with
  | nil => simp at hm
  | cons c t =>
    simp only [flushAll, flush, loop k _ hd, List.append_nil]

example : flushAll [([1, 2, 3], .took 1 :: List.replicate 100 .again), ([7], [.took 1])] = [[1]] := by decide +kernel

/-- **C65, partial.**  If every socket takes the bytes within its answers, every client receives all of its replies; missing: clients that do
not read. -/
theorem all_receive_partial (cs : List (Bytes × List Answer)) (h : ∀ c ∈ cs, (flush c.1 c.2).2 = .done) : flushAll cs = cs.map (·.1) := by
  induction cs with
  | nil => rfl
  | cons c l ih =>
    obtain ⟨out, a⟩ := c
    have hc := h (out, a) List.mem_cons_self
    have := (flush_prefix a out).2 hc
    rcases hf : flush out a with ⟨s, e⟩
    rw [hf] at hc this
    simp only at hc this
    subst hc
    simp only [flushAll, hf, this, List.map_cons, ih fun c hc => h c (List.mem_cons_of_mem _ hc)]

example : ∀ c ∈ [([1, 2, 3], [Answer.again, .took 2, .took 5]), ([4], [.took 1])], (flush c.1 c.2).2 = .done := by decide

end Verif.Net.Out
