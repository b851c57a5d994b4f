import Mathlib.Tactic.Common
import Verif.Wire.Spec
import Verif.Mc.Reply

/-!
C100: the memcache server a user has in mind.  Keys have values, flags, some of them a time when they go away, and a token that changes with every change;
each command has its reply and its effect.  Nothing here mentions hash tables, shards or packed entries.
-/

namespace Verif.McWire

open Verif.Cmd Function

/-- What a key holds. -/
structure Held where
  value : Bytes
  flags : Nat
  upto : Option Int
  cas : Nat
deriving DecidableEq

/-- What is kept, and for each key the largest token that it ever had. -/
structure Store where
  has : Bytes → Option Held
  used : Bytes → Nat

/-- What is there at time `now`. -/
def Store.see (m : Store) (now : Int) (k : Bytes) : Option Held := (m.has k).filter fun x => x.upto.all fun d => decide (now < d)

/-- The key holds something new. -/
def Store.put (m : Store) (k : Bytes) (x : Held) : Store := ⟨update m.has k (some x), update m.used k x.cas⟩

/-- The key holds nothing. -/
def Store.drop (m : Store) (k : Bytes) : Store := ⟨update m.has k none, m.used⟩

/-- `set`, `add`, `replace`, and `cas` with a token. -/
inductive How where
  | set | add | replace
  | cas (c : Nat)
deriving DecidableEq

/-- The commands. -/
inductive Ask where
  | get (tokens : Bool) (ks : List Bytes)
  | store (how : How) (k v : Bytes) (flags : Nat) (exp : Int)
  | join (front : Bool) (k v : Bytes)
  | delete (k : Bytes)
  | count (down : Bool) (k : Bytes) (d : Nat)
  | touch (k : Bytes) (secs : Int)
  | version
  | other

/-- The replies: items, a line, or a line that begins with CLIENT_ERROR or SERVER_ERROR. -/
inductive Answer where
  | values (tokens : Bool) (fs : List Found)
  | line (l : Bytes)
  | refusal

/-- "STORED" -/
def stored : Bytes := [83, 84, 79, 82, 69, 68]
/-- "NOT_STORED" -/
def notStored : Bytes := [78, 79, 84, 95, 83, 84, 79, 82, 69, 68]
/-- "EXISTS" -/
def exists_ : Bytes := [69, 88, 73, 83, 84, 83]
/-- "NOT_FOUND" -/
def notFound : Bytes := [78, 79, 84, 95, 70, 79, 85, 78, 68]
/-- "DELETED" -/
def deleted : Bytes := [68, 69, 76, 69, 84, 69, 68]
/-- "TOUCHED" -/
def touched : Bytes := [84, 79, 85, 67, 72, 69, 68]
/-- "ERROR" -/
def error : Bytes := [69, 82, 82, 79, 82]
/-- "VERSION " -/
def versionIs : Bytes := [86, 69, 82, 83, 73, 79, 78, 32]

/-- A value that `incr` and `decr` can count with. -/
def Counter (t : Bytes) (n : Nat) : Prop := Mc.NatText t n ∧ n < 2 ^ 64

/-- Texts that are no counters but count all the same: no text at all, a blank or a sign in front, or 21 digits. -/
def Strange (t : Bytes) : Prop := t = [] ∨ (∃ b, t.head? = some b ∧ b ∈ ([9, 10, 11, 12, 13, 32, 43, 45] : Bytes)) ∨ t.length = 21

/-- The value with something in front or behind. -/
def joined (front : Bool) (old new : Bytes) : Bytes := if front then new ++ old else old ++ new

/-- What a client learns of a key. -/
def shown (tokens : Bool) (k : Bytes) (x : Held) : Found := ⟨k, x.flags, if tokens then some x.cas else none, x.value⟩

/-- A command at the time `now` of the clock of the cache and the Unix time `unix`: the reply, and what is kept then.  The times when values go away are those of
the memcache protocol (`mcDeadline`).  A new token is larger than all that the key had. -/
inductive Serves (ver : Bytes) (now unix : Int) (m : Store) : Ask → Answer → Store → Prop
  | get {tokens : Bool} {ks : List Bytes} :
      Serves ver now unix m (.get tokens ks) (.values tokens (ks.filterMap fun k => (m.see now k).map (shown tokens k))) m
  | set {k v : Bytes} {f : Nat} {exp : Int} {c : Nat} : m.used k < c →
      Serves ver now unix m (.store .set k v f exp) (.line stored) (m.put k ⟨v, f, mcDeadline now unix exp, c⟩)
  | add {k v : Bytes} {f : Nat} {exp : Int} {c : Nat} : m.see now k = none → m.used k < c →
      Serves ver now unix m (.store .add k v f exp) (.line stored) (m.put k ⟨v, f, mcDeadline now unix exp, c⟩)
  | addNot {k v : Bytes} {f : Nat} {exp : Int} : m.see now k ≠ none → Serves ver now unix m (.store .add k v f exp) (.line notStored) m
  | replace {k v : Bytes} {f : Nat} {exp : Int} {c : Nat} : m.see now k ≠ none → m.used k < c →
      Serves ver now unix m (.store .replace k v f exp) (.line stored) (m.put k ⟨v, f, mcDeadline now unix exp, c⟩)
  | replaceNot {k v : Bytes} {f : Nat} {exp : Int} : m.see now k = none → Serves ver now unix m (.store .replace k v f exp) (.line notStored) m
  | cas {k v : Bytes} {f : Nat} {exp : Int} {t c : Nat} {x : Held} : m.see now k = some x → x.cas = t → m.used k < c →
      Serves ver now unix m (.store (.cas t) k v f exp) (.line stored) (m.put k ⟨v, f, mcDeadline now unix exp, c⟩)
  | casOther {k v : Bytes} {f : Nat} {exp : Int} {t : Nat} {x : Held} : m.see now k = some x → x.cas ≠ t →
      Serves ver now unix m (.store (.cas t) k v f exp) (.line exists_) m
  | casMissing {k v : Bytes} {f : Nat} {exp : Int} {t : Nat} : m.see now k = none → Serves ver now unix m (.store (.cas t) k v f exp) (.line notFound) m
  | join {front : Bool} {k v : Bytes} {c : Nat} {x : Held} : m.see now k = some x → v.length + x.value.length ≤ Wire.longest → m.used k < c →
      Serves ver now unix m (.join front k v) (.line stored) (m.put k ⟨joined front x.value v, x.flags, x.upto, c⟩)
  | joinTooLong {front : Bool} {k v : Bytes} {x : Held} : m.see now k = some x → Wire.longest < v.length + x.value.length →
      Serves ver now unix m (.join front k v) .refusal m
  | joinMissing {front : Bool} {k v : Bytes} : m.see now k = none → Serves ver now unix m (.join front k v) (.line notStored) m
  | delete {k : Bytes} : m.see now k ≠ none → Serves ver now unix m (.delete k) (.line deleted) (m.drop k)
  | deleteMissing {k : Bytes} : m.see now k = none → Serves ver now unix m (.delete k) (.line notFound) m
  | up {k : Bytes} {d n c : Nat} {x : Held} : m.see now k = some x → Counter x.value n → m.used k < c →
      Serves ver now unix m (.count false k d) (.line (Wire.digits ((n + d) % 2 ^ 64)))
        (m.put k ⟨Wire.digits ((n + d) % 2 ^ 64), x.flags, x.upto, c⟩)
  | down {k : Bytes} {d n c : Nat} {x : Held} : m.see now k = some x → Counter x.value n → m.used k < c →
      Serves ver now unix m (.count true k d) (.line (Wire.digits (n - d))) (m.put k ⟨Wire.digits (n - d), x.flags, x.upto, c⟩)
  | countNot {down : Bool} {k : Bytes} {d : Nat} {x : Held} : m.see now k = some x → (¬ ∃ n, Counter x.value n) →
      Serves ver now unix m (.count down k d) .refusal m
  | countMissing {down : Bool} {k : Bytes} {d : Nat} : m.see now k = none → Serves ver now unix m (.count down k d) (.line notFound) m
  | touch {k : Bytes} {secs : Int} {c : Nat} {x : Held} : m.see now k = some x → m.used k < c →
      Serves ver now unix m (.touch k secs) (.line touched) (m.put k ⟨x.value, x.flags, mcDeadline now unix secs, c⟩)
  | touchMissing {k : Bytes} {secs : Int} : m.see now k = none → Serves ver now unix m (.touch k secs) (.line notFound) m
  | version : Serves ver now unix m .version (.line (versionIs ++ ver)) m
  | other : Serves ver now unix m .other (.line error) m

/-- Where the server does something else: what it sends, and what is kept then.  `add` to a key that exists is answered EXISTS; `replace` and `cas` of a key that does
not exist are answered NOT_FOUND with a NUL behind the line; `decr` below zero goes on from 2^64; and some texts that are no counters (`Strange`) count, for some number. -/
inductive Off (now : Int) (m : Store) : Ask → Bytes → Store → Prop
  | add {k v : Bytes} {f : Nat} {exp : Int} : m.see now k ≠ none → Off now m (.store .add k v f exp) (exists_ ++ [13, 10]) m
  | replace {k v : Bytes} {f : Nat} {exp : Int} : m.see now k = none → Off now m (.store .replace k v f exp) (notFound ++ [13, 10, 0]) m
  | cas {k v : Bytes} {f : Nat} {exp : Int} {t : Nat} : m.see now k = none → Off now m (.store (.cas t) k v f exp) (notFound ++ [13, 10, 0]) m
  | below {k : Bytes} {d n c : Nat} {x : Held} : m.see now k = some x → Counter x.value n → n < d → d < 2 ^ 64 → m.used k < c →
      Off now m (.count true k d) (Wire.digits (2 ^ 64 + n - d) ++ [13, 10]) (m.put k ⟨Wire.digits (2 ^ 64 + n - d), x.flags, x.upto, c⟩)
  | odd {down : Bool} {k : Bytes} {d j c : Nat} {x : Held} : m.see now k = some x → (¬ ∃ n, Counter x.value n) → Strange x.value → j < 2 ^ 64 → m.used k < c →
      Off now m (.count down k d) (Wire.digits j ++ [13, 10]) (m.put k ⟨Wire.digits j, x.flags, x.upto, c⟩)

/-! ### How a client reads the replies -/

/-- What a client has read (blocks announced by a line each, and the last line) is this reply. -/
def Answer.Read : Answer → List (Bytes × Bytes) × Bytes → Prop
  | .values tokens fs, x => x.2 = [69, 78, 68] ∧
      List.Forall₂ (fun f p => valueLine tokens (wordsOf p.1) = some (f.key, f.flags, f.data.length, f.cas) ∧ p.2 = f.data) fs x.1
  | .line l, x => x = ([], l)
  | .refusal, x => x.1 = [] ∧ ∃ t, x.2 = Mc.clientError ++ t ∨ x.2 = Mc.serverError ++ t

/-- A client reads this reply from the bytes, and exactly these bytes, whatever follows. -/
def Spoken (r : Answer) (bytes : Bytes) : Prop := ∃ x fuel, r.Read x ∧ ∀ rest f, fuel ≤ f → Mc.read f (bytes ++ rest) = some (x.1, x.2, rest)

/-- Commands at their times, one after the other: the replies (`none` where the server does something else), the bytes sent, and what is kept at the end. -/
inductive Talk (ver : Bytes) : List (Int × Int × Ask) → Store → List (Option Answer) → Bytes → Store → Prop
  | nil (m : Store) : Talk ver [] m [] [] m
  | good {now unix : Int} {a : Ask} {l : List (Int × Int × Ask)} {m m1 m2 : Store} {r : Answer} {rs : List (Option Answer)} {b bs : Bytes} :
      Serves ver now unix m a r m1 → Spoken r b → Talk ver l m1 rs bs m2 → Talk ver ((now, unix, a) :: l) m (some r :: rs) (b ++ bs) m2
  | off {now unix : Int} {a : Ask} {l : List (Int × Int × Ask)} {m m1 m2 : Store} {rs : List (Option Answer)} {b bs : Bytes} :
      Off now m a b m1 → Talk ver l m1 rs bs m2 → Talk ver ((now, unix, a) :: l) m (none :: rs) (b ++ bs) m2

/-! ### How the commands are written -/

/-- The verb. -/
def How.verb : How → Mc.Verb
  | .set => .set
  | .add => .add
  | .replace => .replace
  | .cas _ => .cas

/-- How commands are written (without `noreply`). -/
inductive Writes : Ask → Bytes → Prop
  | get {tokens : Bool} {ks : List Bytes} : ks ≠ [] → (∀ k ∈ ks, Mc.Key k) →
      Writes (.get tokens ks) (Mc.joined ((if tokens then [103, 101, 116, 115] else [103, 101, 116]) :: ks) ++ [13, 10])
  | store {how : How} {r : Mc.Store} {f c : Nat} {exp : Int} : r.Ok f exp c → r.noreply = false → r.verb = how.verb → (∀ t, how = .cas t → t = c) →
      Writes (.store how r.key r.data f exp) r.wire
  | join {front : Bool} {r : Mc.Store} {f c : Nat} {exp : Int} : r.Ok f exp c → r.noreply = false → r.verb = (if front then .prepend else .append) →
      Writes (.join front r.key r.data) r.wire
  | delete {k : Bytes} : Mc.Key k → k ≠ Mc.noreplyWord → Writes (.delete k) (Mc.joined [[100, 101, 108, 101, 116, 101], k] ++ [13, 10])
  | count {down : Bool} {k t : Bytes} {d : Nat} : Mc.Key k → Mc.NatText t d → d < 2 ^ 64 →
      Writes (.count down k d) (Mc.joined [if down then [100, 101, 99, 114] else [105, 110, 99, 114], k, t] ++ [13, 10])
  | touch {k t : Bytes} {secs : Int} : Mc.Key k → Mc.ExpText t secs → 0 < secs → secs ≤ 30 * 24 * 60 * 60 →
      Writes (.touch k secs) (Mc.joined [[116, 111, 117, 99, 104], k, t] ++ [13, 10])
  | version : Writes .version (Mc.joined [[118, 101, 114, 115, 105, 111, 110]] ++ [13, 10])
  | other {w : Bytes} {ws : List Bytes} : w ∉ Mc.commandNames → (∀ x ∈ w :: ws, Mc.Word x) → Writes .other (Mc.joined (w :: ws) ++ [13, 10])

end Verif.McWire
