import Mathlib.Tactic.Common
import Verif.Net.Out

/-!
C51: which bytes a connection's handler is given, and which bytes a connection's socket is given, `/repo/src/net.c:659-680, 731-782,
815-866`.

Each connection of a round has its own packet buffer, `inpkts+(i*PACKETSIZE)`, which keeps what was read into it in an earlier round.  With
io_uring all operations of a round are submitted, and then one completion is taken for each connection *in the order of the connections*; but
the kernel may complete operations in any order.  The model takes the order of the completions as an argument.  The terminating NUL
(`/repo/src/net.c:675`) is left out.
-/

namespace Verif.Net.Uring

/-- The capacity of a packet, `PACKETSIZE-1`, `/repo/src/net.c:53, 740`. -/
def packet : Nat := 16383

/-- What the kernel has for a read: bytes (at least one), nothing at present, the end of the stream, or an error. -/
inductive Got where
  | data (b : Bytes)
  | again
  | eof
  | failed
deriving DecidableEq, Repr

/-- `cqe->res`, or the result of `read` with its `errno`. -/
def Got.res : Got → Option Nat ⊕ Unit
  | .data b => .inl (some b.length)
  | .again => .inr ()
  | .eof => .inl (some 0)
  | .failed => .inl none

/-- The packet buffer after the read: the bytes, then what was there before. -/
def Got.fill (g : Got) (pkt : Bytes) : Bytes :=
  match g with
  | .data b => b ++ pkt.drop b.length
  | _ => pkt

/-- What becomes of a connection: its data handler is called with some bytes, or it is closed. -/
inductive Seen where
  | handler (b : Bytes)
  | closed
deriving DecidableEq, Repr

/-- `handle_read`, `/repo/src/net.c:659-680`, and the call of the handler in `qprocess`, `/repo/src/net.c:787-791`. -/
def handleRead (res : Option Nat ⊕ Unit) (pkt : Bytes) : Seen :=
  match res with
  | .inr _ => .handler []
  | .inl none => .closed
  | .inl (some 0) => .closed
  | .inl (some n) => .handler (pkt.take n)

/-- `qread` with system calls, `/repo/src/net.c:768-778`. -/
def readPlain (pkts : List Bytes) (gots : List Got) : List Seen :=
  List.zipWith (fun pkt g => handleRead g.res (g.fill pkt)) pkts gots

/-- `qread` with io_uring, `/repo/src/net.c:736-764`: `order` are the numbers of the operations as they complete.  The handlers are called
after all completions, so all packets are filled. -/
def readUring (order : List Nat) (pkts : List Bytes) (gots : List Got) : List Seen :=
  List.zipWith (fun pkt c => handleRead ((gots[c]?).getD .failed).res pkt) (List.zipWith (fun pkt g => Got.fill g pkt) pkts gots) order

/-- The packets after the round. -/
def after (pkts : List Bytes) (gots : List Got) : List Bytes := List.zipWith (fun pkt g => Got.fill g pkt) pkts gots ++ pkts.drop gots.length

/-! ### Specification -/

/-- What a connection should see: exactly the bytes it has sent. -/
def Right : Got → Seen → Prop
  | .data b, s => s = .handler b
  | .again, s => s = .handler []
  | .eof, s => s = .closed
  | .failed, s => s = .closed

/-- A read returns between one byte and a packet. -/
def Got.Ok : Got → Prop
  | .data b => b ≠ [] ∧ b.length ≤ packet
  | _ => True

/-! ### Proofs -/

theorem handleRead_right {g : Got} (hg : g.Ok) (pkt : Bytes) : Right g (handleRead g.res (g.fill pkt)) := by
  cases g with
  | data b =>
    cases b with
    | nil => exact absurd rfl hg.1
    | cons c t =>
      simp only [Right, Got.res, Got.fill, handleRead, List.length_cons]
      rw [List.take_append_of_le_length (by simp), List.take_of_length_le (by simp)]
  | again => rfl
  | eof => rfl
  | failed => rfl

/-- **C51, partial.**  With system calls each connection's handler gets exactly the bytes of its connection; so it does with io_uring if the
completions come in the order of submission.  Missing: completions in another order, see `uring_mixes_connections`. -/
theorem handlers_get_own_bytes_partial (pkts : List Bytes) (gots : List Got) (hl : gots.length ≤ pkts.length) (hg : ∀ g ∈ gots, g.Ok) :
    List.Forall₂ Right gots (readPlain pkts gots) ∧ List.Forall₂ Right gots (readUring (List.range gots.length) pkts gots) := by
  have e : readUring (List.range gots.length) pkts gots = readPlain pkts gots := by
    apply List.ext_getElem
    · simp only [readUring, readPlain, List.length_zipWith, List.length_range]; omega
    · intro i h1 h2
      simp only [readUring, readPlain, List.getElem_zipWith, List.getElem_range]
      rw [List.getElem?_eq_getElem (by simp only [readPlain, List.length_zipWith] at h2; omega)]
      rfl
  rw [e]
  refine and_self_iff.mpr ?_
  clear e
  induction gots generalizing pkts with
  | nil => cases pkts <;> exact .nil
  | cons g l ih =>
    cases pkts with
    | nil => simp at hl
    | cons p ps => exact .cons (handleRead_right (hg g List.mem_cons_self) p) (ih ps (by simpa using hl) fun g h => hg g (List.mem_cons_of_mem _ h))

example : ∀ g ∈ [Got.data [1, 2], .again, .eof], g.Ok := by simp [Got.Ok, packet]

example : readUring [0, 1, 2] [[9, 9, 9], [8, 8], [7]] [.data [1, 2], .again, .eof] = [.handler [1, 2], .handler [], .closed] := by decide

/-- **C51, negation.**  If the second of two reads completes first, each connection gets the length of the other's data: the connection that
sent less gets its bytes followed by bytes left in its packet from an earlier round, and the one that sent more loses its last bytes. -/
theorem uring_mixes_connections (p0 p1 d0 d1 : Bytes) (h0 : d0 ≠ []) (h01 : d0.length < d1.length) :
    readUring [1, 0] [p0, p1] [.data d0, .data d1] =
      [.handler (d0 ++ (p0.drop d0.length).take (d1.length - d0.length)), .handler (d1.take d0.length)] := by
  obtain ⟨n0, hn0⟩ : ∃ n, d0.length = n + 1 := ⟨d0.length - 1, by cases d0 with | nil => exact absurd rfl h0 | cons _ _ => simp⟩
  obtain ⟨n1, hn1⟩ : ∃ n, d1.length = n + 1 := ⟨d1.length - 1, by omega⟩
  have e0 : handleRead (Got.data d1).res ((Got.data d0).fill p0) = .handler (d0 ++ (p0.drop d0.length).take (d1.length - d0.length)) := by
    simp only [Got.res, Got.fill, hn1, handleRead]
    rw [← hn1, List.take_append, List.take_of_length_le (by omega)]
  have e1 : handleRead (Got.data d0).res ((Got.data d1).fill p1) = .handler (d1.take d0.length) := by
    simp only [Got.res, Got.fill, hn0, handleRead]
    rw [← hn0, List.take_append_of_le_length (by omega)]
  have : readUring [1, 0] [p0, p1] [.data d0, .data d1] =
    [handleRead (Got.data d1).res ((Got.data d0).fill p0), handleRead (Got.data d0).res ((Got.data d1).fill p1)] := rfl
  rw [this, e0, e1]

/-- Two rounds: a client sends `GET S\nFLUSHALL\n`; then two others send `PING\n` and `GET A\nGET A2\n`, and the reads complete in the other order: the
first of them is taken to have sent `PING\n\nFLUSHA`, a part of which the first client had sent. -/
theorem uring_foreign_bytes :
    let first := [71, 69, 84, 32, 83, 10, 70, 76, 85, 83, 72, 65, 76, 76, 10]
    let pkts := after [List.replicate 20 0, List.replicate 20 0] [.data first]
    readUring [1, 0] pkts [.data [80, 73, 78, 71, 10], .data [71, 69, 84, 32, 65, 10, 71, 69, 84, 32, 65, 50]] =
      [.handler [80, 73, 78, 71, 10, 10, 70, 76, 85, 83, 72, 65], .handler [71, 69, 84, 32, 65]] := by decide +kernel

/-! ### Writing -/

/-- The answer of the kernel to the one write of a connection (`cqe->res`). -/
inductive Took where
  | bytes (n : Nat)
  | again
  | failed
deriving DecidableEq, Repr

/-- What the first write puts on the socket. -/
def Took.sent (t : Took) (out : Bytes) : Bytes :=
  match t with
  | .bytes n => out.take n
  | _ => []

/-- `qwrite` with io_uring, `/repo/src/net.c:820-854`, when the remaining bytes are then taken by the socket at once (`flush_conn`): the bytes
each connection's socket gets, and whether it is closed. -/
def writeUring (order : List Nat) (outs : List Bytes) (tooks : List Took) : List (Bytes × Bool) :=
  List.zipWith (fun (x : Bytes × Took) c =>
    match (tooks[c]?).getD .failed with
    | .bytes n => (x.2.sent x.1 ++ (Out.flush (x.1.drop n) [.took x.1.length]).1, false)
    | .again => (x.2.sent x.1 ++ (Out.flush x.1 [.took x.1.length]).1, false)
    | .failed => (x.2.sent x.1, true)) (List.zip outs tooks) order

theorem flush_all (out : Bytes) (n : Nat) (h : out.length ≤ n) : (Out.flush out [.took n]).1 = out := by
  cases out with
  | nil => rfl
  | cons c t =>
    simp only [Out.flush]
    rw [List.take_of_length_le h, List.drop_eq_nil_of_le h]
    exact List.append_nil _

/-- **C51, partial, writing.**  If the completions come in the order of submission every connection's socket gets exactly its replies, or the
write failed and the connection is closed. -/
theorem sockets_get_own_replies_partial (outs : List Bytes) (tooks : List Took) (hl : outs.length = tooks.length) (i : Nat) (hi : i < outs.length) :
    ∃ r, (writeUring (List.range outs.length) outs tooks)[i]? = some r ∧ (tooks[i]? ≠ some .failed → r = (outs[i], false)) ∧
      (tooks[i]? = some .failed → r = ([], true)) := by
  have h1 : i < (writeUring (List.range outs.length) outs tooks).length := by
    simp only [writeUring, List.length_zipWith, List.length_zip, List.length_range]; omega
  have hi' : i < tooks.length := by omega
  refine ⟨_, List.getElem?_eq_getElem h1, ?_⟩
  simp only [writeUring, List.getElem_zipWith, List.getElem_range, List.getElem_zip, List.getElem?_eq_getElem hi', Option.getD_some]
  cases ht : tooks[i] with
  | bytes n =>
    refine ⟨fun _ => ?_, fun h => by cases h⟩
    have := flush_all (outs[i].drop n) outs[i].length (by rw [List.length_drop]; omega)
    simp only [Took.sent, this, List.take_append_drop]
  | again =>
    refine ⟨fun _ => ?_, fun h => by cases h⟩
    rw [flush_all _ _ (Nat.le_refl _)]
    rfl
  | failed => exact ⟨fun h => absurd rfl h, fun _ => rfl⟩

example : writeUring [0, 1] [[1, 2, 3, 4], [5, 6]] [.bytes 1, .bytes 2] = [([1, 2, 3, 4], false), ([5, 6], false)] := by decide +kernel

/-- **C51, negation, writing.**  The second write completes first and the first took only one byte: the first socket misses bytes in the
middle of its reply, the second gets bytes twice; and if the first failed, the second connection is closed, and the first is not. -/
theorem uring_mangles_replies :
    writeUring [1, 0] [[1, 2, 3, 4], [5, 6]] [.bytes 1, .bytes 2] = [([1, 3, 4], false), ([5, 6, 6], false)] ∧
    writeUring [1, 0] [[1, 2, 3, 4], [5, 6]] [.failed, .bytes 2] = [([3, 4], false), ([5, 6], true)] := by decide +kernel

end Verif.Net.Uring
