import Mathlib.Tactic.Common
import Verif.Pg.Service
import Verif.Mc.Reply
import Verif.Cross.Props
import Verif.Cmd.ScanCmd

/-!
C99: STATS shows each number under its name.
-/

namespace Verif.StatsOut

open Verif.Num Verif.Resp Verif.Cmd Verif.Cache

/-! ### Model -/

/-- The numbers shown by STATS. -/
inductive Counter where
  /-- `max_connections` -/
  | maxConns
  /-- `curr_connections` -/
  | currConns
  /-- `total_connections` -/
  | totalConns
  /-- `rejected_connections` -/
  | rejectedConns
  /-- `cmd_get` -/
  | cmdGet
  /-- `cmd_set` -/
  | cmdSet
  /-- `cmd_flush` -/
  | cmdFlush
  /-- `cmd_touch` -/
  | cmdTouch
  /-- `get_hits` -/
  | getHits
  /-- `get_misses` -/
  | getMisses
  /-- `delete_misses` -/
  | deleteMisses
  /-- `delete_hits` -/
  | deleteHits
  /-- `incr_misses` -/
  | incrMisses
  /-- `incr_hits` -/
  | incrHits
  /-- `decr_misses` -/
  | decrMisses
  /-- `decr_hits` -/
  | decrHits
  /-- `touch_hits` -/
  | touchHits
  /-- `touch_misses` -/
  | touchMisses
  /-- `store_too_large` -/
  | tooLarge
  /-- `store_no_memory` -/
  | noMemory
  /-- `auth_cmds` -/
  | authCmds
  /-- `auth_errors` -/
  | authErrors
  /-- `threads` -/
  | threads
  /-- `rss` -/
  | rss
  /-- `bytes` -/
  | bytes
  /-- `curr_items` -/
  | currItems
  /-- `total_items` -/
  | totalItems
deriving DecidableEq, Repr

/-- What `stats` asks for, `/repo/src/cmds.c:2052-2101`: the numbers (all of them 64 bits wide, the number of threads not negative), the process, the texts of the times as
`%.0f` prints them, version and hash, and the times of `getrusage`, if it succeeds. -/
structure Machine where
  counter : Counter → Nat
  pid : Nat
  uptime : Bytes
  time : Bytes
  version : Bytes
  githash : Bytes
  rusage : Option (Bytes × Bytes)

/-- The texts printed, in the order of `/repo/src/cmds.c:2055-2100`; `%zu`, `%d` and `PRIu64` print decimal numbers. -/
def texts (m : Machine) : List Bytes :=
  [ -- pid, uptime, time, product, version, githash, pointer_size
    [112, 105, 100, 32] ++ u64toa m.pid,
    [117, 112, 116, 105, 109, 101, 32] ++ m.uptime,
    [116, 105, 109, 101, 32] ++ m.time,
    [112, 114, 111, 100, 117, 99, 116, 32, 112, 111, 103, 111, 99, 97, 99, 104, 101],
    [118, 101, 114, 115, 105, 111, 110, 32] ++ m.version,
    [103, 105, 116, 104, 97, 115, 104, 32] ++ m.githash,
    [112, 111, 105, 110, 116, 101, 114, 95, 115, 105, 122, 101, 32, 54, 52]] ++
  (match m.rusage with
   | some (u, s) => [[114, 117, 115, 97, 103, 101, 95, 117, 115, 101, 114, 32] ++ u, [114, 117, 115, 97, 103, 101, 95, 115, 121, 115, 116, 101, 109, 32] ++ s]
   | none => []) ++ [
    -- max_connections, line 2070
    [109, 97, 120, 95, 99, 111, 110, 110, 101, 99, 116, 105, 111, 110, 115, 32] ++ u64toa (m.counter .maxConns),
    -- curr_connections, line 2071
    [99, 117, 114, 114, 95, 99, 111, 110, 110, 101, 99, 116, 105, 111, 110, 115, 32] ++ u64toa (m.counter .currConns),
    -- total_connections, line 2072
    [116, 111, 116, 97, 108, 95, 99, 111, 110, 110, 101, 99, 116, 105, 111, 110, 115, 32] ++ u64toa (m.counter .totalConns),
    -- rejected_connections, line 2073
    [114, 101, 106, 101, 99, 116, 101, 100, 95, 99, 111, 110, 110, 101, 99, 116, 105, 111, 110, 115, 32] ++ u64toa (m.counter .rejectedConns),
    -- cmd_get, line 2074
    [99, 109, 100, 95, 103, 101, 116, 32] ++ u64toa (m.counter .cmdGet),
    -- cmd_set, line 2075
    [99, 109, 100, 95, 115, 101, 116, 32] ++ u64toa (m.counter .cmdSet),
    -- cmd_flush, line 2076
    [99, 109, 100, 95, 102, 108, 117, 115, 104, 32] ++ u64toa (m.counter .cmdFlush),
    -- cmd_touch, line 2077
    [99, 109, 100, 95, 116, 111, 117, 99, 104, 32] ++ u64toa (m.counter .cmdTouch),
    -- get_hits, line 2078
    [103, 101, 116, 95, 104, 105, 116, 115, 32] ++ u64toa (m.counter .getHits),
    -- get_misses, line 2079
    [103, 101, 116, 95, 109, 105, 115, 115, 101, 115, 32] ++ u64toa (m.counter .getMisses),
    -- delete_misses, line 2080
    [100, 101, 108, 101, 116, 101, 95, 109, 105, 115, 115, 101, 115, 32] ++ u64toa (m.counter .deleteMisses),
    -- delete_hits, line 2081
    [100, 101, 108, 101, 116, 101, 95, 104, 105, 116, 115, 32] ++ u64toa (m.counter .deleteHits),
    -- incr_misses, line 2082
    [105, 110, 99, 114, 95, 109, 105, 115, 115, 101, 115, 32] ++ u64toa (m.counter .incrMisses),
    -- incr_hits, line 2083
    [105, 110, 99, 114, 95, 104, 105, 116, 115, 32] ++ u64toa (m.counter .incrHits),
    -- decr_misses, line 2084
    [100, 101, 99, 114, 95, 109, 105, 115, 115, 101, 115, 32] ++ u64toa (m.counter .decrMisses),
    -- decr_hits, line 2085
    [100, 101, 99, 114, 95, 104, 105, 116, 115, 32] ++ u64toa (m.counter .decrHits),
    -- touch_hits, line 2086
    [116, 111, 117, 99, 104, 95, 104, 105, 116, 115, 32] ++ u64toa (m.counter .touchHits),
    -- touch_misses, line 2087
    [116, 111, 117, 99, 104, 95, 109, 105, 115, 115, 101, 115, 32] ++ u64toa (m.counter .touchMisses),
    -- store_too_large, line 2088
    [115, 116, 111, 114, 101, 95, 116, 111, 111, 95, 108, 97, 114, 103, 101, 32] ++ u64toa (m.counter .tooLarge),
    -- store_no_memory, line 2089
    [115, 116, 111, 114, 101, 95, 110, 111, 95, 109, 101, 109, 111, 114, 121, 32] ++ u64toa (m.counter .noMemory),
    -- auth_cmds, line 2090
    [97, 117, 116, 104, 95, 99, 109, 100, 115, 32] ++ u64toa (m.counter .authCmds),
    -- auth_errors, line 2091
    [97, 117, 116, 104, 95, 101, 114, 114, 111, 114, 115, 32] ++ u64toa (m.counter .authErrors),
    -- threads, line 2092
    [116, 104, 114, 101, 97, 100, 115, 32] ++ u64toa (m.counter .threads),
    -- rss, line 2095
    [114, 115, 115, 32] ++ u64toa (m.counter .rss),
    -- bytes, line 2097
    [98, 121, 116, 101, 115, 32] ++ u64toa (m.counter .bytes),
    -- curr_items, line 2098
    [99, 117, 114, 114, 95, 105, 116, 101, 109, 115, 32] ++ u64toa (m.counter .currItems),
    -- total_items, line 2099
    [116, 111, 116, 97, 108, 95, 105, 116, 101, 109, 115, 32] ++ u64toa (m.counter .totalItems)]

/-- `stats_printf`, `/repo/src/cmds.c:2042-2050`: at most 510 bytes and a NUL are printed into `line`, but as many bytes as the whole text has, and one, are copied from it; more
than there are is undefined. -/
def printf (t : Bytes) : Option Bytes := if t.length ≤ 510 then some (t ++ [0]) else none

/-- A C string. -/
def cstr (l : Bytes) : Bytes := l.takeWhile (· ≠ 0)

/-- The line is cut at the first blank by `strchr`, `/repo/src/cmds.c:2001-2009, 2028-2035`. -/
def cut (l : Bytes) : Bytes × Bytes := ((cstr l).takeWhile (· ≠ 32), ((cstr l).dropWhile (· ≠ 32)).drop 1)

/-- `stats_end`, `/repo/src/cmds.c:1997-2040`; for memcache the line is printed into 512 bytes and as many bytes as it would have are written from there. -/
def statsEnd (p : Proto) (ls : List Bytes) : List W :=
  if p = .postgres then
    .pg (.desc [[115, 116, 97, 116], [118, 97, 108, 117, 101]]) :: (ls.map (fun l => .pg (.row [(cut l).1, (cut l).2])) ++ pgEnd ([83, 84, 65, 84, 83, 32] ++ u64toa ls.length))
  else if p = .memcache then
    ls.map (fun l => if (cstr l).length + 7 ≤ 511 then .raw ([83, 84, 65, 84, 32] ++ cstr l ++ [13, 10]) else .undefined) ++ [.raw [69, 78, 68, 13, 10]]
  else .arr ls.length :: ls.flatMap fun l => [.arr 2, .bulk (cut l).1, .bulk (cut l).2]

/-- `stats`, `/repo/src/cmds.c:2052-2101`. -/
def stats (m : Machine) (p : Proto) : List W :=
  match (texts m).mapM printf with
  | some ls => statsEnd p ls
  | none => [.undefined]

/-! ### Specification -/

/-- The names of the numbers (those of memcache, where it has them). -/
def Counter.name : Counter → Bytes
  | .maxConns => [109, 97, 120, 95, 99, 111, 110, 110, 101, 99, 116, 105, 111, 110, 115]
  | .currConns => [99, 117, 114, 114, 95, 99, 111, 110, 110, 101, 99, 116, 105, 111, 110, 115]
  | .totalConns => [116, 111, 116, 97, 108, 95, 99, 111, 110, 110, 101, 99, 116, 105, 111, 110, 115]
  | .rejectedConns => [114, 101, 106, 101, 99, 116, 101, 100, 95, 99, 111, 110, 110, 101, 99, 116, 105, 111, 110, 115]
  | .cmdGet => [99, 109, 100, 95, 103, 101, 116]
  | .cmdSet => [99, 109, 100, 95, 115, 101, 116]
  | .cmdFlush => [99, 109, 100, 95, 102, 108, 117, 115, 104]
  | .cmdTouch => [99, 109, 100, 95, 116, 111, 117, 99, 104]
  | .getHits => [103, 101, 116, 95, 104, 105, 116, 115]
  | .getMisses => [103, 101, 116, 95, 109, 105, 115, 115, 101, 115]
  | .deleteMisses => [100, 101, 108, 101, 116, 101, 95, 109, 105, 115, 115, 101, 115]
  | .deleteHits => [100, 101, 108, 101, 116, 101, 95, 104, 105, 116, 115]
  | .incrMisses => [105, 110, 99, 114, 95, 109, 105, 115, 115, 101, 115]
  | .incrHits => [105, 110, 99, 114, 95, 104, 105, 116, 115]
  | .decrMisses => [100, 101, 99, 114, 95, 109, 105, 115, 115, 101, 115]
  | .decrHits => [100, 101, 99, 114, 95, 104, 105, 116, 115]
  | .touchHits => [116, 111, 117, 99, 104, 95, 104, 105, 116, 115]
  | .touchMisses => [116, 111, 117, 99, 104, 95, 109, 105, 115, 115, 101, 115]
  | .tooLarge => [115, 116, 111, 114, 101, 95, 116, 111, 111, 95, 108, 97, 114, 103, 101]
  | .noMemory => [115, 116, 111, 114, 101, 95, 110, 111, 95, 109, 101, 109, 111, 114, 121]
  | .authCmds => [97, 117, 116, 104, 95, 99, 109, 100, 115]
  | .authErrors => [97, 117, 116, 104, 95, 101, 114, 114, 111, 114, 115]
  | .threads => [116, 104, 114, 101, 97, 100, 115]
  | .rss => [114, 115, 115]
  | .bytes => [98, 121, 116, 101, 115]
  | .currItems => [99, 117, 114, 114, 95, 105, 116, 101, 109, 115]
  | .totalItems => [116, 111, 116, 97, 108, 95, 105, 116, 101, 109, 115]

/-- A table of names and values shows the number under its name, and nothing else under this name. -/
def Shows (rows : List (Bytes × Bytes)) (k : Counter) (n : Nat) : Prop :=
  ∃ t, rows.filter (fun x => x.1 = k.name) = [(k.name, t)] ∧ natOf t = some n

/-- A RESP client reads an array of pairs. -/
def respTable (rows : List (Bytes × Bytes)) : Reply := .array (rows.map fun x => .array [.bulk x.1, .bulk x.2])

/-- A memcache client reads lines `STAT name value`. -/
def mcRow (x : Bytes × Bytes) : Option (Bytes × Bytes) :=
  match wordsOf x.1 with
  | [[83, 84, 65, 84], name, value] => some (name, value)
  | _ => none

/-- The machine is an ordinary one: numbers of 64 bits, and short texts without blanks and control characters. -/
structure Machine.Ok (m : Machine) : Prop where
  counters : ∀ k, m.counter k < 2 ^ 64
  pid : m.pid < 2 ^ 64
  texts : ∀ t, t = m.uptime ∨ t = m.time ∨ t = m.version ∨ t = m.githash ∨ (∃ s, m.rusage = some (t, s)) ∨ (∃ s, m.rusage = some (s, t)) →
    t.length ≤ 400 ∧ ∀ b ∈ t, 32 < b

/-! ### Proofs -/

/-- Name and value. -/
def split (t : Bytes) : Bytes × Bytes := (t.takeWhile (· ≠ 32), (t.dropWhile (· ≠ 32)).drop 1)

/-- The table. -/
def rows (m : Machine) : List (Bytes × Bytes) := (texts m).map split

/-- **C99.** -/
theorem rows_show (m : Machine) (k : Counter) : Shows (rows m) k (m.counter k) := by
  refine ⟨u64toa (m.counter k), ?_, natOf_u64toa _⟩
  obtain ⟨c, pid, up, ti, ve, gi, ru⟩ := m
  cases ru <;> cases k <;> rfl

/-- A name, a blank and a value. -/
def Fair (t : Bytes) : Prop := ∃ n v : Bytes, t = n ++ 32 :: v ∧ (∀ b ∈ n, 32 < b) ∧ (∀ b ∈ v, 32 < b) ∧ n.length ≤ 60 ∧ v.length ≤ 400

theorem fair_of {p v : Bytes} (hp : p.getLast? = some 32 ∧ (∀ b ∈ p.dropLast, 32 < b) ∧ p.length ≤ 60) (hv : v.length ≤ 400 ∧ ∀ b ∈ v, 32 < b) : Fair (p ++ v) := by
  obtain ⟨h1, h2, h3⟩ := hp
  have hne : p ≠ [] := by rintro rfl; cases h1
  refine ⟨p.dropLast, v, ?_, h2, hv.2, by rw [List.length_dropLast]; omega, hv.1⟩
  have h4 : p.getLast hne = 32 := by rw [List.getLast?_eq_some_getLast hne] at h1; simpa using h1
  conv => lhs; rw [← List.dropLast_concat_getLast hne, h4]
  simp

theorem fair_num {p : Bytes} {n : Nat} (hp : p.getLast? = some 32 ∧ (∀ b ∈ p.dropLast, 32 < b) ∧ p.length ≤ 60) (hn : n < 2 ^ 64) : Fair (p ++ u64toa n) := by
  refine fair_of hp ⟨?_, fun b hb => ?_⟩
  · have := u64toa_length_le 19 n (by omega)
    omega
  · have := u64toa_digits n b hb
    simp only [isDigit, Bool.and_eq_true, decide_eq_true_eq, UInt8.le_iff_toNat_le] at this
    rw [UInt8.lt_iff_toNat_lt]
    exact lt_of_lt_of_le (by decide) this.1

theorem texts_fair {m : Machine} (h : m.Ok) : ∀ t ∈ texts m, Fair t := by
  have hc := h.counters
  have hp := h.pid
  have h1 := h.texts m.uptime (by simp)
  have h2 := h.texts m.time (by simp)
  have h3 := h.texts m.version (by simp)
  have h4 := h.texts m.githash (by simp)
  unfold texts
  rw [List.forall_mem_append, List.forall_mem_append]
  refine ⟨⟨?_, ?_⟩, ?_⟩
  · simp only [List.forall_mem_cons, List.not_mem_nil, false_imp_iff, implies_true, and_true]
    refine ⟨fair_num (by decide) hp, fair_of (by decide) h1, fair_of (by decide) h2, ?_, fair_of (by decide) h3, fair_of (by decide) h4, ?_⟩
    · exact fair_of (p := [112, 114, 111, 100, 117, 99, 116, 32]) (v := [112, 111, 103, 111, 99, 97, 99, 104, 101]) (by decide) (by decide)
    · exact fair_of (p := [112, 111, 105, 110, 116, 101, 114, 95, 115, 105, 122, 101, 32]) (v := [54, 52]) (by decide) (by decide)
  · cases hr : m.rusage with
    | none => simp
    | some x =>
      obtain ⟨u, s⟩ := x
      have h5 := h.texts u (by simp [hr])
      have h6 := h.texts s (by simp [hr])
      simp only [List.forall_mem_cons, List.not_mem_nil, false_imp_iff, implies_true, and_true]
      exact ⟨fair_of (by decide) h5, fair_of (by decide) h6⟩
  · simp only [List.forall_mem_cons, List.not_mem_nil, false_imp_iff, implies_true, and_true]
    refine ⟨?_, ?_, ?_, ?_, ?_, ?_, ?_, ?_, ?_, ?_, ?_, ?_, ?_, ?_, ?_, ?_, ?_, ?_, ?_, ?_, ?_, ?_, ?_, ?_, ?_, ?_, ?_⟩ <;> exact fair_num (by decide) (hc _)

theorem Fair.facts {t : Bytes} (h : Fair t) : t.length ≤ 461 ∧ 0 ∉ t ∧ t = (split t).1 ++ 32 :: (split t).2 ∧ (∀ b ∈ (split t).1, 32 < b) ∧ ∀ b ∈ (split t).2, 32 < b := by
  obtain ⟨n, v, rfl, h1, h2, h3, h4⟩ := h
  have ht : ∀ b ∈ n, (fun b : UInt8 => decide (b ≠ 32)) b = true := by
    intro b hb
    have := h1 b hb
    simp only [decide_eq_true_eq]
    rintro rfl
    exact absurd this (by decide)
  have e1 : (split (n ++ 32 :: v)).1 = n := by
    show (n ++ 32 :: v).takeWhile _ = n
    rw [List.takeWhile_append_of_pos ht]
    simp
  have e2 : (split (n ++ 32 :: v)).2 = v := by
    show ((n ++ 32 :: v).dropWhile _).drop 1 = v
    rw [List.dropWhile_append_of_pos ht]
    simp
  refine ⟨by simp; omega, ?_, by rw [e1, e2], by rw [e1]; exact h1, by rw [e2]; exact h2⟩
  simp only [List.mem_append, List.mem_cons, not_or]
  exact ⟨fun hm => absurd (h1 0 hm) (by decide), by decide, fun hm => absurd (h2 0 hm) (by decide)⟩

theorem cstr_line {t : Bytes} (h : 0 ∉ t) : cstr (t ++ [0]) = t := by
  unfold cstr
  rw [List.takeWhile_append_of_pos]
  · simp
  · intro b hb
    simp only [decide_eq_true_eq]
    rintro rfl
    exact h hb

theorem cut_line {t : Bytes} (h : 0 ∉ t) : cut (t ++ [0]) = split t := by unfold cut split; rw [cstr_line h]

theorem printed {ts : List Bytes} (h : ∀ t ∈ ts, t.length ≤ 510) : ts.mapM printf = some (ts.map (· ++ [0])) := by
  induction ts with
  | nil => rfl
  | cons t l ih =>
    rw [List.mapM_cons, ih fun x hx => h x (List.mem_cons_of_mem _ hx)]
    unfold printf
    rw [if_pos (h t List.mem_cons_self)]
    rfl

/-- What the command of `Verif.Cmd.Admin` writes is what `stats` writes. -/
theorem stats_model {y : Sys} {m : Machine} {e : Env} {name : Bytes} (h : m.Ok) (hy : y.stats = rows m) : cmdSTATS y e [name] = .ret (stats m e.proto) := by
  have hf := texts_fair h
  unfold cmdSTATS stats
  rw [printed fun t ht => by have := (hf t ht).facts.1; omega]
  simp only [statsEnd, hy, rows, List.map_map, List.length_map]
  by_cases h1 : e.proto = .memcache
  · rw [if_pos h1, if_neg (by rw [h1]; decide), if_pos h1]
    congr 2
    refine List.map_congr_left fun t ht => ?_
    have := (hf t ht).facts
    simp only [Function.comp_apply]
    rw [cstr_line this.2.1, if_pos (by omega)]
    congr 1
    conv => rhs; rw [this.2.2.1]
    simp
  · rw [if_neg h1]
    by_cases h2 : e.proto = .postgres
    · rw [if_pos h2, if_pos h2]
      congr 3
      refine List.map_congr_left fun t ht => ?_
      simp only [Function.comp_apply]
      rw [cut_line (hf t ht).facts.2.1]
    · rw [if_neg h2, if_neg h2, if_neg h1]
      congr 2
      rw [List.flatMap_map, List.flatMap_map]
      refine List.flatMap_congr fun t ht => ?_
      rw [cut_line (hf t ht).facts.2.1]

theorem table_ok {l : List (Bytes × Bytes)} (h : ∀ x ∈ l, x.1.length < 2 ^ 64 ∧ x.2.length < 2 ^ 64) : Val.AllOk (l.map fun x => Val.array [.bulk x.1, .bulk x.2]) := by
  induction l with
  | nil => trivial
  | cons x l ih => exact ⟨⟨by simp, (h x (by simp)).1, (h x (by simp)).2, trivial⟩, ih fun x hx => h x (by simp [hx])⟩

theorem table_replies (l : List (Bytes × Bytes)) : Val.replies (l.map fun x => Val.array [.bulk x.1, .bulk x.2]) = l.map fun x => Reply.array [.bulk x.1, .bulk x.2] := by
  induction l with
  | nil => rfl
  | cons x l ih => simp only [List.map_cons, Val.replies, ih, Val.reply]

theorem table_render (l : List (Bytes × Bytes)) (buf : Bytes) :
    renderAll (l.flatMap fun x => [.arr 2, .bulk x.1, .bulk x.2]) buf = Val.writeAll buf (l.map fun x => Val.array [.bulk x.1, .bulk x.2]) := by
  induction l generalizing buf with
  | nil => rfl
  | cons x l ih =>
    rw [List.flatMap_cons, List.map_cons, Val.writeAll, ← ih]
    rfl

/-- The name of the command. -/
def statsName : Bytes := [115, 116, 97, 116, 115]

variable {env : Spec.Env} {I : Spec.State → Spec.State → Prop} {oom : Bool} {e : Env} {pw : Bytes} {y : Sys} {m : Machine} {s s' : Spec.State}

theorem rows_small (h : m.Ok) : ∀ x ∈ rows m, x.1.length < 2 ^ 64 ∧ x.2.length < 2 ^ 64 := by
  intro x hx
  obtain ⟨t, ht, rfl⟩ := List.mem_map.1 hx
  have h1 := (texts_fair h t ht).facts
  have h2 := congrArg List.length h1.2.2.1
  rw [List.length_append, List.length_cons] at h2
  omega

theorem rows_few (m : Machine) : (rows m).length ≤ 40 := by
  unfold rows texts
  rw [List.length_map]
  cases m.rusage <;> simp

theorem stats_rows {name : Bytes} (h : m.Ok) : cmdSTATS { y with stats := rows m } e [name] = .ret (stats m e.proto) := stats_model h rfl

/-- **C99**, RESP: the client reads a table that shows each number under its name; nothing is changed. -/
theorem stats_resp {name w rest bytes : Bytes} (h : m.Ok) (hs : Spells name statsName) (hp : e.proto = .resp)
    (hy : cmdSTATS y e [name] = .ret (stats m e.proto)) (hw : Enc [name] w)
    (hx : Runs env I oom e.now (Cross.serveResp e pw (admin y) (w ++ rest)) s bytes s') :
    s' = s ∧ ∃ table, Cross.Hears bytes (respTable table) ∧ ∀ k, Shows table k (m.counter k) := by
  obtain ⟨out, hx', rfl⟩ := Cross.resp_runs (S := ⟨env, pw, admin y, fun _ => [], id, ⟨[], false, []⟩⟩) hw hx
  replace hx : Executes env I oom e pw (admin y) [name] s out s' := hx'
  rw [executes_iff hs (by decide : (statsName, Fn.cmdSTATS) ∈ cmds) (p := cmdSTATS y e [name]) rfl, hy, ← stats_rows (y := y) (name := name) h, cmdSTATS] at hx
  rw [hp, if_neg (by decide), if_neg (by decide)] at hx
  obtain ⟨rfl, rfl⟩ := runs_ret hx
  refine ⟨rfl, rows m, ?_, rows_show m⟩
  have hl := rows_few m
  have := answers_val (out := .arr (rows m).length :: (rows m).flatMap fun x => [.arr 2, .bulk x.1, .bulk x.2]) (.array ((rows m).map fun x => Val.array [.bulk x.1, .bulk x.2]))
    ⟨by rw [List.length_map]; omega, table_ok (rows_small h)⟩ (by
      intro buf
      have := table_render (rows m) (render buf (.arr (rows m).length))
      simp only [renderAll, List.foldl_cons] at this ⊢
      rw [this]
      simp only [Val.write, List.length_map]
      rfl)
  refine .of_answers ?_
  simpa only [Val.reply, table_replies, respTable] using this

/-- The line of memcache. -/
def statLine (x : Bytes × Bytes) : Bytes := [83, 84, 65, 84] ++ 32 :: (x.1 ++ 32 :: x.2)

theorem statLine_row {x : Bytes × Bytes} (h1 : ∀ b ∈ x.1, 32 < b) (h2 : ∀ b ∈ x.2, 32 < b) (d : Bytes) : mcRow (statLine x, d) = some x := by
  have g1 : 32 ∉ x.1 := fun h => absurd (h1 32 h) (by decide)
  have g2 : 32 ∉ x.2 := fun h => absurd (h2 32 h) (by decide)
  unfold mcRow statLine
  simp only []
  rw [wordsOf_word (by decide), wordsOf_word g1, wordsOf_last g2]
  rfl

theorem read_stats (l : List (Bytes × Bytes)) (h : ∀ x ∈ l, (∀ b ∈ x.1, 32 < b) ∧ ∀ b ∈ x.2, 32 < b) :
    ∃ parts, parts.mapM mcRow = some l ∧ ∀ rest f, l.length + 1 ≤ f →
      Mc.read f ((l.map fun x => statLine x ++ [13, 10]).flatten ++ [69, 78, 68, 13, 10] ++ rest) = some (parts, [69, 78, 68], rest) := by
  induction l with
  | nil =>
    refine ⟨[], rfl, fun rest f hf => ?_⟩
    obtain ⟨g, rfl⟩ : ∃ g, f = g + 1 := ⟨f - 1, by omega⟩
    exact Mc.read_plain (l := [69, 78, 68]) (by unfold Mc.Plain; decide) rest g
  | cons x l ih =>
    obtain ⟨parts, h1, h2⟩ := ih fun y hy => h y (List.mem_cons_of_mem _ hy)
    have hx := h x List.mem_cons_self
    refine ⟨(statLine x, []) :: parts, by rw [List.mapM_cons, h1, statLine_row hx.1 hx.2]; rfl, fun rest f hf => ?_⟩
    obtain ⟨g, rfl⟩ : ∃ g, f = g + 1 := ⟨f - 1, by omega⟩
    have h13 : ∀ b ∈ statLine x, b ≠ 13 := by
      intro b hb
      simp only [statLine, List.mem_append, List.mem_cons, List.not_mem_nil, or_false] at hb
      have key : ∀ b : UInt8, 32 < b → b ≠ 13 := by rintro b hb rfl; exact absurd hb (by decide)
      rcases hb with (rfl | rfl | rfl | rfl) | rfl | hb | rfl | hb
      any_goals decide
      · exact key b (hx.1 b hb)
      · exact key b (hx.2 b hb)
    have hw : wordsOf (statLine x) = [83, 84, 65, 84] :: wordsOf (x.1 ++ 32 :: x.2) := wordsOf_word (by decide) _
    have := h2 rest g (by simpa using hf)
    rw [List.map_cons, List.flatten_cons, Mc.read]
    have e1 : statLine x ++ [13, 10] ++ (l.map fun x => statLine x ++ [13, 10]).flatten ++ [69, 78, 68, 13, 10] ++ rest =
        statLine x ++ 13 :: 10 :: ((l.map fun x => statLine x ++ [13, 10]).flatten ++ [69, 78, 68, 13, 10] ++ rest) := by simp
    rw [e1, line_clean h13]
    simp only [Option.bind_some, hw, this, Option.map_some]

theorem rows_clean (h : m.Ok) : ∀ x ∈ rows m, (∀ b ∈ x.1, 32 < b) ∧ ∀ b ∈ x.2, 32 < b := by
  intro x hx
  obtain ⟨t, ht, rfl⟩ := List.mem_map.1 hx
  exact (texts_fair h t ht).facts.2.2.2

theorem stats_parse (rest : Bytes) : Mc.parseMc (statsName ++ [13, 10] ++ rest) = .got (.cmd [statsName] false, 7) := by
  have := Mc.parseLine_joined (ws := [statsName]) (by simp) (by unfold Mc.Word; decide) rest
  rw [Mc.joined] at this
  unfold Mc.parseMc
  rw [this]
  rfl

/-- **C99**, memcache: to the line `stats` the client reads lines `STAT name value` that show each number under its name, and `END`. -/
theorem stats_mc {rest bytes : Bytes} (h : m.Ok) (hp : e.proto = .memcache) (hy : cmdSTATS y e [statsName] = .ret (stats m e.proto))
    (hx : Runs env I oom e.now (Cross.serveMc e pw (admin y) (statsName ++ [13, 10] ++ rest)) s bytes s') :
    s' = s ∧ ∃ parts table fuel, (∀ more f, fuel ≤ f → Mc.read f (bytes ++ more) = some (parts, [69, 78, 68], more)) ∧
      parts.mapM mcRow = some table ∧ ∀ k, Shows table k (m.counter k) := by
  unfold Cross.serveMc at hx
  rw [stats_parse] at hx
  obtain ⟨⟨out, st'⟩, h1, rfl⟩ := runs_map hx
  have hx : Executes env I oom e pw (admin y) [statsName] s out s' := ⟨st', h1⟩
  rw [executes_iff spells_self (by decide : (statsName, Fn.cmdSTATS) ∈ cmds) (p := cmdSTATS y e [statsName]) rfl, hy, ← stats_rows (y := y) (name := statsName) h, cmdSTATS] at hx
  rw [if_pos hp] at hx
  obtain ⟨rfl, rfl⟩ := runs_ret hx
  obtain ⟨parts, h2, h3⟩ := read_stats (rows m) (rows_clean h)
  refine ⟨rfl, parts, rows m, (rows m).length + 1, fun more f hf => ?_, h2, rows_show m⟩
  rw [← h3 more f hf]
  congr 2
  simp only [List.map_append, List.flatten_append, List.map_map, List.map_cons, List.map_nil]
  congr 2
  refine List.map_congr_left fun x _ => ?_
  simp [Mc.respond, render, statLine]

variable {hash : Nat → Nat} {c : Pg.Conf} {x x' : Pg.Client} {out : List Bytes} {n : Nat}

/-- **C99**, Postgres: the query is answered by a table with two columns that shows each number under its name. -/
theorem stats_pg {name : Bytes} (h : m.Ok) (hp : e.proto = .postgres) (hi : Pg.Idle x.pg) (ha : Pg.Allowed pw x.st) {q : Pg.Query}
    (hw : Pg.Writes q [name]) (hs : Spells name statsName) (hy : cmdSTATS y e [name] = .ret (stats m e.proto)) (hlen : (Pg.text q).length + 5 < 2147483648) {rest : Bytes}
    (hx : Runs env I oom e.now (Pg.serve hash c e pw (admin y) x (Pg.message 81 (Pg.queryMsg (Pg.text q)) ++ rest)) s (out, n, x') s') (hf : ∀ b ∈ out, b.length ≤ 2147483648) (rest' : Bytes) :
    s' = s ∧ ∃ tag table, (∀ k, Shows table k (m.counter k)) ∧
      Pg.getAnswer (out.flatten ++ rest') = some (.table [([115, 116, 97, 116], x.pg.oid), ([118, 97, 108, 117, 101], x.pg.oid)] (table.map fun r => [r.1, r.2]) tag, rest') := by
  obtain ⟨o, hx', rfl⟩ := Pg.query_runs hi ha hw hlen hs (by decide : (statsName, Fn.cmdSTATS) ∈ cmds) (by decide) (p := cmdSTATS y e [name]) rfl hx
  rw [hy, ← stats_rows (y := y) (name := name) h, cmdSTATS, if_neg (by rw [hp]; decide), if_pos hp] at hx'
  obtain ⟨rfl, rfl⟩ := runs_ret hx'
  have hd : 0 ∉ ([83, 84, 65, 84, 83, 32] ++ u64toa (rows m).length : Bytes) := by
    intro hc
    rcases List.mem_append.1 hc with hc | hc
    · revert hc; decide
    · have := u64toa_digits _ _ hc
      revert this; decide
  refine ⟨rfl, [83, 84, 65, 84, 83, 32] ++ u64toa (rows m).length, rows m, rows_show m, ?_⟩
  have := Pg.read_table (hi.error false) (names := [[115, 116, 97, 116], [118, 97, 108, 117, 101]]) (rows := (rows m).map fun r => [r.1, r.2]) hd (by decide) (by decide) (by intro r hr; obtain ⟨z, -, rfl⟩ := List.mem_map.1 hr; rfl)
    (by rw [List.map_map]; exact hf) rest'
  rw [List.map_map] at this
  exact this

/-! ### Examples -/

/-- A machine: seven items, five GETs of which three found something, no times of the process. -/
def m1 : Machine where
  counter
    | .cmdGet => 5
    | .getHits => 3
    | .getMisses => 2
    | .currItems => 7
    | .maxConns => 1024
    | .totalItems => 18446744073709551615
    | _ => 0
  pid := 4711
  uptime := [49, 50]
  time := [49, 55, 54, 51]
  version := [49, 46, 51]
  githash := [97, 98, 99]
  rusage := some ([48, 46, 49], [48, 46, 50])

theorem m1_ok : m1.Ok := by
  refine ⟨fun k => by cases k <;> decide, by decide, fun t ht => ?_⟩
  rcases ht with rfl | rfl | rfl | rfl | ⟨s, hs⟩ | ⟨s, hs⟩
  · decide
  · decide
  · decide
  · decide
  · obtain ⟨rfl, rfl⟩ : ([48, 46, 49] : Bytes) = t ∧ ([48, 46, 50] : Bytes) = s := by simpa [m1] using hs
    decide
  · obtain ⟨rfl, rfl⟩ : ([48, 46, 49] : Bytes) = s ∧ ([48, 46, 50] : Bytes) = t := by simpa [m1] using hs
    decide

/-- The server with this machine. -/
def y1 : Sys := { sys1 with stats := rows m1 }

/-- Hypotheses of `stats_resp`: `STATS` as an array of one string. -/
example : m1.Ok ∧ Spells [83, 84, 65, 84, 83] statsName ∧ cmdSTATS y1 (at_ .resp 5) [[83, 84, 65, 84, 83]] = .ret (stats m1 .resp) ∧
    Enc [[83, 84, 65, 84, 83]] [42, 49, 13, 10, 36, 53, 13, 10, 83, 84, 65, 84, 83, 13, 10] ∧
    ∃ bytes s', Runs ⟨true, false, fun _ => 0⟩ alone false 5 (Cross.serveResp (at_ .resp 5) [] (admin y1) ([42, 49, 13, 10, 36, 53, 13, 10, 83, 84, 65, 84, 83, 13, 10] ++ [1])) st1 bytes s' := by
  have hw : Enc [[83, 84, 65, 84, 83]] [42, 49, 13, 10, 36, 53, 13, 10, 83, 84, 65, 84, 83, 13, 10] := by
    refine ⟨[49], _, ⟨by decide, by decide, by decide, by decide⟩, by decide, ?_, rfl⟩
    exact .cons (w := [36, 53, 13, 10, 83, 84, 65, 84, 83, 13, 10]) ⟨[53], ⟨by decide, by decide, by decide, by decide⟩, by decide, rfl⟩ .nil
  refine ⟨m1_ok, (spells_iff _ _ (by decide)).2 (by decide), stats_model m1_ok rfl, hw, renderAll (stats m1 .resp) [], st1, ?_⟩
  unfold Cross.serveResp
  rw [(enc_framed hw).2.1 [1]]
  refine runs_map_of (a := (stats m1 .resp, ⟨true⟩)) ?_
  rw [evcommand_known (fn := .cmdSTATS) (low := statsName) ((spells_iff _ _ (by decide)).2 (by decide)) (by decide)]
  have h : cmdSTATS y1 (at_ .resp 5) [[83, 84, 65, 84, 83]] = .ret (stats m1 .resp) := stats_model m1_ok rfl
  show Runs _ _ _ _ (Prog.map (·, _) (cmdSTATS y1 (at_ .resp 5) [[83, 84, 65, 84, 83]])) _ _ _
  rw [h]
  exact .ret _ _

/-- Hypotheses of `stats_mc`. -/
example : m1.Ok ∧ cmdSTATS y1 (at_ .memcache 5) [statsName] = .ret (stats m1 .memcache) ∧
    ∃ bytes s', Runs ⟨true, false, fun _ => 0⟩ alone false 5 (Cross.serveMc (at_ .memcache 5) [] (admin y1) (statsName ++ [13, 10] ++ [103])) st1 bytes s' := by
  refine ⟨m1_ok, stats_model m1_ok rfl, ((stats m1 .memcache).map Mc.respond).flatten, st1, ?_⟩
  unfold Cross.serveMc
  rw [stats_parse]
  refine runs_map_of (a := (stats m1 .memcache, ⟨true⟩)) ?_
  rw [evcommand_known (fn := .cmdSTATS) (low := statsName) spells_self (by decide)]
  have h : cmdSTATS y1 (at_ .memcache 5) [statsName] = .ret (stats m1 .memcache) := stats_model m1_ok rfl
  show Runs _ _ _ _ (Prog.map (·, _) (cmdSTATS y1 (at_ .memcache 5) [statsName])) _ _ _
  rw [h]
  exact .ret _ _

/-- `stats`. -/
def statsQ : Pg.Query := [(false, .word statsName)]

/-- Hypotheses of `stats_pg`. -/
example (hash : Nat → Nat) : m1.Ok ∧ Pg.Idle Pg.client1.pg ∧ Pg.Allowed [] Pg.client1.st ∧ Pg.Writes statsQ [statsName] ∧
    cmdSTATS y1 (at_ .postgres 5) [statsName] = .ret (stats m1 .postgres) ∧ (Pg.text statsQ).length + 5 < 2147483648 ∧
    ∃ out n x' s', Runs ⟨true, false, fun _ => 0⟩ alone false 5 (Pg.serve hash Pg.conf1 (at_ .postgres 5) [] (admin y1) Pg.client1 (Pg.message 81 (Pg.queryMsg (Pg.text statsQ)) ++ [7]))
      st1 (out, n, x') s' ∧ ∀ b ∈ out, b.length ≤ 2147483648 := by
  have hw : Pg.Writes statsQ [statsName] := ⟨by simp [statsQ, Pg.Valid, Pg.Piece.Ok]; decide, by simp [statsQ], by simp [statsQ], rfl⟩
  have hq := Pg.query_exact_partial hash [] Pg.client1.pg hw.valid (by simp [statsQ]) hw.apart hw.noParam
  have hx := Pg.serve_runs (env := ⟨true, false, fun _ => 0⟩) (I := alone) (oom := false) (s := st1) (s' := st1) (hash := hash) (c := Pg.conf1) (e := at_ .postgres 5) (other := admin y1) (low := statsName) (fn := .cmdSTATS) (Or.inl rfl) (Pg.frame_query [7] (by decide)) hq rfl spells_self (by decide)
    (by decide) (p := cmdSTATS y1 (at_ .postgres 5) [statsName]) rfl (.ret _ _) (by decide)
  exact ⟨m1_ok, Pg.client1_idle, Or.inl rfl, hw, stats_model m1_ok rfl, by decide, _, _, _, _, hx, by decide +kernel⟩

end Verif.StatsOut
