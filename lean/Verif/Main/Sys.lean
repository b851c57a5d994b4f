import Mathlib.Tactic.Common
import Verif.Main.Memlimit
import Verif.Main.Options
import Verif.Num.Model

/-!
C111: the memory of the system, `/repo/src/sys.c`, and the limit that is a part of it.  C112: the number of threads.
-/

namespace Verif.Main

/-! ### Model -/

/-- `strstr`: the rest of the string from the first occurrence. -/
def find (pat : Bytes) : Bytes → Option Bytes
  | [] => if pat = [] then some [] else none
  | b :: s => if pat.isPrefixOf (b :: s) then some (b :: s) else find pat s

/-- "MemTotal", `/repo/src/sys.c:88`. -/
def memTotal : Bytes := [77, 101, 109, 84, 111, 116, 97, 108]

/-- " kB", `/repo/src/sys.c:95-96`. -/
def kB : Bytes := [32, 107, 66]

/-- Result of `sys_memory`: a number of bytes, the end by `assert`, or a product whose result C does not define. -/
inductive Mem where
  | bytes (n : Nat)
  | abort
  | undefined
deriving DecidableEq, Repr

/-- The number in the line, `/repo/src/sys.c:99-104`. -/
def kilobytes (s : Bytes) : Mem :=
  let (neg, ds, _) := Num.strtoScan s
  let v : Int := if neg then -(Num.digitsVal 0 ds : Int) else Num.digitsVal 0 ds
  if v ≤ 0 ∨ v > Num.i64max then .abort
  else if v * 1024 > Num.i64max then .undefined
  else .bytes (v * 1024).toNat

/-- `sys_memory` on Linux, `/repo/src/sys.c:78-107`.  `file` is what `/proc/meminfo` contains, `none` if it cannot be opened. -/
def sysMemory (file : Option Bytes) : Mem :=
  match file with
  | none => .bytes 0
  | some f =>
    let buf := (f.take 4095).takeWhile (· ≠ 0)
    match (find memTotal buf).bind (find [58, 32]) with
    | none => .bytes 0
    | some s =>
      match find [10] s with
      | none => .bytes 0
      | some e =>
        let s := ((s.take (s.length - e.length)).drop 2).dropWhile isSpace
        match find kB s with
        | none => kilobytes s
        | some r => kilobytes (s.take (s.length - r.length))

/-- `sys_nprocs` on Linux, `/repo/src/sys.c:41-72`, when it is not known yet: from the CPUs in the mask, `none` if `sched_getaffinity` fails (as it does if the machine may
have more than the 1024 CPUs of `cpu_set_t`).  The second component is what is kept for the next call, 0 for nothing.  `double` numbers are rationals, which is exact here. -/
def countProcs (logical : Int) (mask : Option (List Bool)) : Int × Int :=
  let logical := if logical < 1 then 1 else logical
  let physical := logical
  match mask with
  | none => (1, 0)
  | some m =>
    let affinity : Int := (m.take 1024).count true
    let hyper : Rat := ⌈(logical : Rat) / physical⌉
    let hyper := if hyper < 1 then 1 else hyper
    let x := (affinity : Rat) / hyper
    let n := if ⌊x⌋ < 1 then 1 else ⌊x⌋
    (n, n)

/-- `sys_nprocs`, with what is kept, `/repo/src/sys.c:42-46, 70`. -/
def sysNprocs (logical : Int) (mask : Option (List Bool)) (kept : Int) : Int × Int := if kept > 0 then (kept, kept) else countProcs logical mask

/-! ### What the file says -/

/-- The file says that there are `n` kilobytes of memory: a line `MemTotal:`, blanks, the number in decimal digits, and `kB`, within the first 4095 bytes; before it
there are lines that do not mention it, and no NUL. -/
structure Total (file : Bytes) (n : Nat) : Prop where
  line : ∃ pre sp ds rest, file = pre ++ (memTotal ++ [58] ++ sp ++ ds ++ [32, 107, 66, 10]) ++ rest ∧ sp ≠ [] ∧ (∀ b ∈ sp, b = 32) ∧ ds ≠ [] ∧ (∀ b ∈ ds, Digit b) ∧ num ds = n ∧
    0 ∉ pre ∧ (∀ a b, pre ++ memTotal.dropLast ≠ a ++ memTotal ++ b) ∧ (pre ++ (memTotal ++ [58] ++ sp ++ ds ++ [32, 107, 66, 10])).length ≤ 4095

/-- The file does not mention it in the first 4095 bytes. -/
def NoTotal (file : Bytes) : Prop := ∀ a b, file.take 4095 ≠ a ++ memTotal ++ b

/-! ### Proofs -/

theorem find_first {pat : Bytes} (hp : pat ≠ []) (pre rest : Bytes) (h : ∀ a b, pre ++ pat.dropLast ≠ a ++ pat ++ b) : find pat (pre ++ (pat ++ rest)) = some (pat ++ rest) := by
  induction pre with
  | nil =>
    obtain ⟨c, pat', rfl⟩ := List.exists_cons_of_ne_nil hp
    rw [List.nil_append, List.cons_append, find, if_pos]
    rw [List.isPrefixOf_iff_prefix]
    exact ⟨rest, rfl⟩
  | cons b pre ih =>
    rw [List.cons_append, find, if_neg, ih]
    · intro x y hc
      exact h (b :: x) y (by simp [hc])
    · rw [List.isPrefixOf_iff_prefix]
      intro hc
      have hlast : pat.dropLast ++ [pat.getLast hp] = pat := List.dropLast_append_getLast hp
      have h2 : (b :: pre) ++ pat.dropLast <+: b :: (pre ++ (pat ++ rest)) := by
        refine ⟨[pat.getLast hp] ++ rest, ?_⟩
        conv_rhs => rw [← hlast]
        simp
      have h3 : pat <+: (b :: pre) ++ pat.dropLast := List.prefix_of_prefix_length_le hc h2 (by simp; omega)
      obtain ⟨t, ht⟩ := h3
      exact h [] t (by rw [List.nil_append]; exact ht.symm)

theorem find_none {pat : Bytes} (hp : pat ≠ []) (s : Bytes) (h : ∀ a b, s ≠ a ++ pat ++ b) : find pat s = none := by
  induction s with
  | nil => rw [find, if_neg hp]
  | cons b s ih =>
    rw [find, if_neg, ih]
    · intro x y hc
      exact h (b :: x) y (by simp [hc])
    · rw [List.isPrefixOf_iff_prefix]
      rintro ⟨t, ht⟩
      exact h [] t (by rw [List.nil_append]; exact ht.symm)

theorem find_one {c : UInt8} {s rest : Bytes} (h : c ∉ s) : find [c] (s ++ ([c] ++ rest)) = some ([c] ++ rest) := by
  refine find_first (by simp) s rest fun a b hc => h ?_
  have : c ∈ s ++ [c].dropLast := by rw [hc]; simp
  simpa using this

theorem space_digit {b : UInt8} (h : Digit b) : isSpace b = false ∧ Num.isSpace b = false ∧ Num.isDigit b = true := by
  obtain ⟨h1, h2⟩ := h
  have g1 := UInt8.le_iff_toNat_le.1 h1
  have g2 := UInt8.le_iff_toNat_le.1 h2
  simp only [UInt8.reduceToNat] at g1 g2
  have hs : (decide (b = 32) || (decide (9 ≤ b) && decide (b ≤ 13))) = false := by
    rw [Bool.eq_false_iff]
    intro hc
    simp only [Bool.or_eq_true, Bool.and_eq_true, decide_eq_true_eq] at hc
    rcases hc with rfl | ⟨_, hc⟩
    · simp at g1
    · have := UInt8.le_iff_toNat_le.1 hc
      simp only [UInt8.reduceToNat] at this
      omega
  exact ⟨hs, hs, by unfold Num.isDigit; simp [h1, h2]⟩

theorem digitsVal_num {ds : Bytes} (h : ∀ b ∈ ds, Digit b) (a : Nat) : Num.digitsVal a ds = ds.foldl (fun a b => a * 10 + (b.toNat - 48)) a := by
  induction ds generalizing a with
  | nil => rfl
  | cons b ds ih =>
    have hb := h b (by simp)
    rw [Num.digitsVal, List.foldl_cons, ih fun x hx => h x (by simp [hx]), UInt8.toNat_sub_of_le _ _ hb.1]
    rfl

theorem scan_digits {ds : Bytes} (h0 : ds ≠ []) (h : ∀ b ∈ ds, Digit b) : Num.strtoScan ds = (false, ds, []) := by
  have hd : ∀ b ∈ ds, Num.isDigit b = true := fun b hb => (space_digit (h b hb)).2.2
  have ht : ds.takeWhile Num.isDigit = ds := by
    have := List.takeWhile_append_of_pos (l₂ := []) hd
    simpa using this
  have hr : ds.dropWhile Num.isDigit = [] := by
    have := List.dropWhile_append_of_pos (l₂ := []) hd
    simpa using this
  obtain ⟨b, ds', rfl⟩ := List.exists_cons_of_ne_nil h0
  have hb := h b (by simp)
  have h45 : b ≠ 45 := by rintro rfl; exact absurd hb.1 (by decide)
  have h43 : b ≠ 43 := by rintro rfl; exact absurd hb.1 (by decide)
  unfold Num.strtoScan
  rw [List.dropWhile_cons_of_neg (by rw [(space_digit hb).2.1]; decide)]
  simp only []
  split
  · rename_i h3; exact absurd (List.cons.inj h3).1 h45
  · rename_i h3; exact absurd (List.cons.inj h3).1 h43
  · simp only []
    rw [ht, hr]

theorem kilobytes_digits {ds : Bytes} (h0 : ds ≠ []) (h : ∀ b ∈ ds, Digit b) (hp : 0 < num ds) (hl : num ds < 2 ^ 53) : kilobytes ds = .bytes (num ds * 1024) := by
  have hv : Num.digitsVal 0 ds = num ds := digitsVal_num h 0
  have hm : Num.i64max = 9223372036854775807 := rfl
  unfold kilobytes
  rw [scan_digits h0 h]
  simp only [Bool.false_eq_true, if_false, hv]
  rw [if_neg (by omega), if_neg (by omega)]
  congr 1

theorem take_while_self {l r : Bytes} (h : 0 ∉ l) : ∃ r', (l ++ r).takeWhile (· ≠ 0) = l ++ r' := by
  refine ⟨r.takeWhile (· ≠ 0), List.takeWhile_append_of_pos fun b hb => ?_⟩
  simp only [ne_eq, decide_eq_true_eq]
  rintro rfl
  exact h hb

/-- **C111.**  The memory of the system is what `/proc/meminfo` says, in bytes. -/
theorem sysmem_exact {file : Bytes} {n : Nat} (h : Total file n) (hp : 0 < n) (hl : n < 2 ^ 53) : sysMemory (some file) = .bytes (n * 1024) := by
  obtain ⟨pre, sp, ds, rest, rfl, hsp0, hsp, hd0, hd, rfl, hz, hfirst, hlen⟩ := h.line
  have hline0 : (0 : UInt8) ∉ pre ++ (memTotal ++ [58] ++ sp ++ ds ++ [32, 107, 66, 10]) := by
    simp only [List.mem_append, not_or]
    refine ⟨hz, ⟨⟨⟨by decide, by decide⟩, fun hc => ?_⟩, fun hc => ?_⟩, by decide⟩
    · have := hsp _ hc; revert this; decide
    · have := (hd _ hc).1; revert this; decide
  have hbuf : ∃ r', ((pre ++ (memTotal ++ [58] ++ sp ++ ds ++ [32, 107, 66, 10]) ++ rest).take 4095).takeWhile (· ≠ 0) = pre ++ (memTotal ++ [58] ++ sp ++ ds ++ [32, 107, 66, 10]) ++ r' := by
    rw [List.take_append, List.take_of_length_le hlen]
    exact take_while_self hline0
  obtain ⟨r', hbuf⟩ := hbuf
  obtain ⟨b, sp', rfl⟩ := List.exists_cons_of_ne_nil hsp0
  obtain rfl := hsp b (by simp)
  have f1 : find memTotal (pre ++ (memTotal ++ [58] ++ 32 :: sp' ++ ds ++ [32, 107, 66, 10]) ++ r') = some (memTotal ++ ([58] ++ 32 :: sp' ++ ds ++ [32, 107, 66, 10] ++ r')) := by
    have := find_first (pat := memTotal) (by decide) pre ([58] ++ 32 :: sp' ++ ds ++ [32, 107, 66, 10] ++ r') hfirst
    simpa using this
  have f2 : find [58, 32] (memTotal ++ ([58] ++ 32 :: sp' ++ ds ++ [32, 107, 66, 10] ++ r')) = some ([58, 32] ++ (sp' ++ ds ++ [32, 107, 66, 10] ++ r')) := by
    have := find_first (pat := [58, 32]) (by decide) memTotal (sp' ++ ds ++ [32, 107, 66, 10] ++ r') (by
      intro a b hc
      have h32 : (32 : UInt8) ∈ memTotal ++ ([58, 32] : Bytes).dropLast := by rw [hc]; simp
      revert h32; decide)
    simpa using this
  have hnl : (10 : UInt8) ∉ [58, 32] ++ (sp' ++ ds ++ kB) := by
    simp only [List.mem_append, not_or]
    refine ⟨by decide, ⟨fun hc => ?_, fun hc => ?_⟩, by decide⟩
    · have := hsp 10 (List.mem_cons_of_mem _ hc); revert this; decide
    · have := (hd _ hc).1; revert this; decide
  have f3 : find [10] ([58, 32] ++ (sp' ++ ds ++ [32, 107, 66, 10] ++ r')) = some ([10] ++ r') := by
    have := find_one (rest := r') hnl
    simpa [kB] using this
  have hcut : (([58, 32] ++ (sp' ++ ds ++ [32, 107, 66, 10] ++ r')).take (([58, 32] ++ (sp' ++ ds ++ [32, 107, 66, 10] ++ r')).length - ([10] ++ r').length)) = [58, 32] ++ (sp' ++ ds ++ kB) := by
    have e1 : [58, 32] ++ (sp' ++ ds ++ [32, 107, 66, 10] ++ r') = ([58, 32] ++ (sp' ++ ds ++ kB)) ++ ([10] ++ r') := by simp [kB]
    rw [e1, List.length_append, Nat.add_sub_cancel, List.take_left]
  have hdrop : (([58, 32] ++ (sp' ++ ds ++ kB) : Bytes).drop 2).dropWhile isSpace = ds ++ kB := by
    show (sp' ++ ds ++ kB).dropWhile isSpace = _
    rw [List.append_assoc, List.dropWhile_append_of_pos fun b hb => by rw [hsp b (by simp [hb])]; decide]
    obtain ⟨c, ds', rfl⟩ := List.exists_cons_of_ne_nil hd0
    rw [List.cons_append, List.dropWhile_cons_of_neg (by rw [(space_digit (hd c (by simp))).1]; decide)]
  have f4 : find kB (ds ++ kB) = some kB := by
    have := find_first (pat := kB) (by decide) ds [] (by
      intro a b hc
      have h66 : (66 : UInt8) ∈ ds ++ kB.dropLast := by rw [hc]; simp [kB]
      rcases List.mem_append.1 h66 with h | h
      · have := (hd _ h).2; revert this; decide
      · revert h; decide)
    simpa using this
  unfold sysMemory
  simp only []
  rw [hbuf, f1, Option.bind_some, f2]
  simp only []
  rw [f3]
  simp only []
  rw [hcut, hdrop, f4]
  simp only []
  rw [List.length_append, Nat.add_sub_cancel, List.take_left]
  exact kilobytes_digits hd0 hd hp hl

/-- **C111.**  `--maxmemory` with a percentage is that part of the memory that the file says, up to a byte and a half. -/
theorem percent_of_total_partial {fl : Rat → Rat} {strtod : Bytes → Option (Rat × Bytes)} (hf : Doubles fl) (hr : Reads fl strtod) {file : Bytes} {n : Nat} (h : Total file n) (hp : 0 < n)
    {sp ds sp' : Bytes} (hsp : Blank sp) (h0 : ds ≠ []) (hd : ∀ b ∈ ds, Digit b) (hsp' : Blank sp') (hpos : 0 < num ds) (hlt : num ds ≤ 100) (hfit : n ≤ 2 ^ 40) :
    ∃ m L, sysMemory (some file) = .bytes m ∧ calcMemlimit fl strtod m (sp ++ ds ++ (sp' ++ [37])) = .bytes L ∧ |(L : Rat) - num ds * (n * 1024) / 100| ≤ 3 / 2 := by
  obtain ⟨L, h1, h2⟩ := maxmemory_percent hf hr (n * 1024) hsp h0 hd hsp' hpos (by omega) (by
    calc num ds * (n * 1024) ≤ 100 * (n * 1024) := Nat.mul_le_mul_right _ hlt
      _ ≤ 100 * 2 ^ 50 := by omega)
  exact ⟨_, L, sysmem_exact h hp (by omega), h1, by push_cast at h2; exact h2⟩

/-- **C111, negation.**  If there is no such file, or it does not mention the memory, then any percentage is a limit of 0 bytes, and the low memory mode is on from the first
look at the memory in use on, for ever (memory in use is never 0). -/
theorem no_total_low {fl : Rat → Rat} {strtod : Bytes → Option (Rat × Bytes)} (hf : Doubles fl) (hr : Reads fl strtod) {file : Option Bytes} (h : ∀ f, file = some f → NoTotal f)
    {sp ds sp' : Bytes} (hsp : Blank sp) (h0 : ds ≠ []) (hd : ∀ b ∈ ds, Digit b) (hsp' : Blank sp') (hpos : 0 < num ds) (hlt : num ds ≤ 100) :
    ∃ m L, sysMemory file = .bytes m ∧ calcMemlimit fl strtod m (sp ++ ds ++ (sp' ++ [37])) = .bytes L ∧
      ∀ rss seen, 0 < rss → (rss :: seen).foldl (memTick L) false = true := by
  refine ⟨0, 0, ?_, ?_, ?_⟩
  · cases file with
    | none => rfl
    | some f =>
      have hno : find memTotal ((f.take 4095).takeWhile (· ≠ 0)) = none := by
        refine find_none (by decide) _ fun a b hc => ?_
        have := List.takeWhile_append_dropWhile (p := fun x : UInt8 => decide (x ≠ 0)) (l := f.take 4095)
        rw [hc] at this
        exact h f rfl a _ (by rw [← this, List.append_assoc (a ++ memTotal)])
      unfold sysMemory
      simp only []
      rw [hno]
      rfl
  · rw [whole_read hf hr hsp h0 hd hsp' (by intro b hb; obtain rfl := Option.mem_some_iff.1 hb; decide) hpos (by omega)]
    unfold scaleBy
    have hz : fl 0 = 0 := by have := hf.small 0 (by norm_num); simpa using this
    rw [if_neg (by simp), if_pos rfl, Nat.cast_zero, hz, mul_zero, hz]
    unfold toSize
    rw [if_pos (by norm_num)]
    simp
  · intro rss seen hrss
    rw [lowmem_iff (by norm_num)]
    exact ⟨[], rss, seen, rfl, hrss, fun x _ => Nat.zero_le x⟩

/-- **C112.**  Without `--threads` there is one thread for each CPU on which the process may run (at least one), if there are at most 1024, whatever the number of CPUs that are
configured; later calls give the same. -/
theorem threads_per_cpu_partial (logical : Int) (mask : List Bool) (hm : mask.length ≤ 1024) :
    (sysNprocs logical (some mask) 0).1 = max 1 (mask.count true : Int) ∧
    (∀ logical' mask', sysNprocs logical' mask' (sysNprocs logical (some mask) 0).2 = sysNprocs logical (some mask) 0) ∧
    ∀ n ≤ 0, threads (sysNprocs logical (some mask) 0).1 n = max 1 (mask.count true : Int) := by
  have h1 : sysNprocs logical (some mask) 0 = (max 1 (mask.count true : Int), max 1 (mask.count true : Int)) := by
    have key : ∀ l : Int, 1 ≤ l → (if (⌈(l : Rat) / (l : Rat)⌉ : Rat) < 1 then (1 : Rat) else ⌈(l : Rat) / (l : Rat)⌉) = 1 := by
      intro l hl
      have : (l : Rat) ≠ 0 := by
        have : (0 : Rat) < l := by exact_mod_cast hl
        exact ne_of_gt this
      rw [div_self this]
      simp
    unfold sysNprocs countProcs
    rw [if_neg (by decide)]
    simp only []
    rw [key _ (by split <;> omega), div_one, List.take_of_length_le hm, Int.floor_intCast]
    generalize (mask.count true : Int) = c
    have : (if c < 1 then 1 else c) = max 1 c := by split <;> omega
    rw [this]
  rw [h1]
  refine ⟨rfl, fun logical' mask' => ?_, fun n hn => ?_⟩
  · unfold sysNprocs
    rw [if_pos (by simp only []; omega)]
  · unfold threads
    rw [if_pos hn]

/-- **C112, negation.**  If the call fails, as it does on a machine that may have more than 1024 CPUs, there is one thread only, however many CPUs there are. -/
theorem one_thread_on_failure (logical : Int) : (sysNprocs logical none 0).1 = 1 ∧ ∀ n ≤ 0, threads (sysNprocs logical none 0).1 n = 1 := by
  refine ⟨rfl, fun n hn => ?_⟩
  unfold threads
  rw [if_pos hn]
  rfl

/-! ### Concrete cases -/

/-- A file with `Foo: 1 kB`, and `MemTotal:  16 kB`. -/
def meminfo : Bytes := [70, 111, 111, 58, 32, 49, 32, 107, 66, 10, 77, 101, 109, 84, 111, 116, 97, 108, 58, 32, 32, 49, 54, 32, 107, 66, 10, 77, 101, 109, 70, 114, 101, 101, 58, 32, 50, 32, 107, 66, 10]

theorem meminfo_total : Total meminfo 16 := by
  refine ⟨[70, 111, 111, 58, 32, 49, 32, 107, 66, 10], [32, 32], [49, 54], [77, 101, 109, 70, 114, 101, 101, 58, 32, 50, 32, 107, 66, 10], by decide, by simp, by decide, by simp, by unfold Digit; decide,
    by decide, by decide, ?_, by decide⟩
  intro a b hc
  have hl : (108 : UInt8) ∈ ([70, 111, 111, 58, 32, 49, 32, 107, 66, 10] : Bytes) ++ memTotal.dropLast := by rw [hc]; simp [memTotal]
  revert hl
  decide

/-- Cases of the theorems above: 16 kilobytes, 50% of them, and no such file; four CPUs of which the process may use three. -/
example : sysMemory (some meminfo) = .bytes 16384 ∧
    (∃ m L, sysMemory (some meminfo) = .bytes m ∧ calcMemlimit (fun x => x) Example.reader m [53, 48, 37] = .bytes L ∧ |(L : Rat) - 50 * (16 * 1024) / 100| ≤ 3 / 2) ∧
    (∃ m L, sysMemory none = .bytes m ∧ calcMemlimit (fun x => x) Example.reader m [56, 48, 37] = .bytes L ∧ ∀ rss seen, 0 < rss → (rss :: seen).foldl (memTick L) false = true) ∧
    (sysNprocs 4 (some [true, false, true, true]) 0).1 = 3 ∧ threads 3 (-1) = 3 := by
  have hb : Blank [] := by simp [Blank]
  refine ⟨sysmem_exact meminfo_total (by decide) (by decide), ?_, ?_, ?_, by decide⟩
  · exact percent_of_total_partial Example.doubles_id Example.reads_reader meminfo_total (by decide) (sp := []) (ds := [53, 48]) (sp' := []) hb (by simp) (by unfold Digit; decide) hb (by decide)
      (by decide) (by decide)
  · exact no_total_low Example.doubles_id Example.reads_reader (file := none) (by simp) (sp := []) (ds := [56, 48]) (sp' := []) hb (by simp) (by unfold Digit; decide) hb (by decide) (by decide)
  · rw [(threads_per_cpu_partial 4 [true, false, true, true] (by decide)).1]
    decide

end Verif.Main
