import Mathlib.Tactic.Common
import Verif.Mix.Restart
import Verif.Mix.Examples
import Verif.Many.RestartExamples

/-!
C114: a concrete case, and C115: a token of before the restart.
-/

namespace Verif.Mix.Example

open Verif.Num Verif.Resp Verif.Cmd Verif.Cache Verif.Shard Verif.Map Verif.Save Verif.Many Verif.Many.Example Function

/-- The memcache client stores 41 and asks for the token; the RESP client counts. -/
def asks1 : Nat → List Mix.Ask := two [.mc (.store .set [107] [52, 49] 5 0), .mc (.get true [[107]])] [.resp (.add [107] 1)]

/-- On the wire. -/
def wire1 : Nat → List Bytes := two [r1.wire, gets] [incr]

/-- After the restart, the memcache client stores `x`, with the token of before; the RESP client looks. -/
def asks2 : Nat → List Mix.Ask := two [.mc (.store (.cas 2) [107] [120] 7 0)] [.resp (.get [107])]

/-- On the wire. -/
def wire2 : Nat → List Bytes := two [r2.wire] [get 107]

theorem kind_other {t : Nat} (h0 : t ≠ 0) (h1 : t ≠ 2) (h2 : t ≠ 3) : kind t = .resp := by unfold kind; rw [if_neg h0, if_neg h1, if_neg h2]

theorem clients_two {a b : List Mix.Ask} {u v : List Bytes} (h0 : List.Forall₂ (Mix.Written .memcache) a u) (h1 : List.Forall₂ (Mix.Written .resp) b v) :
    Mix.Clients [] kind (two a b) (two u v) (two u v) := by
  refine ⟨fun t _ => ?_, fun t ht => ?_, fun t => List.prefix_refl _⟩
  · by_cases e0 : t = 0
    · subst e0; exact h0
    · by_cases e1 : t = 1
      · subst e1; exact h1
      · unfold two
        rw [if_neg e0, if_neg e0, if_neg e1, if_neg e1]
        exact .nil
  · left
    have e0 : t ≠ 0 := by rintro rfl; cases ht
    have e1 : t ≠ 1 := by rintro rfl; cases ht
    unfold two
    rw [if_neg e0, if_neg e0, if_neg e1, if_neg e1]
    exact ⟨rfl, rfl⟩

theorem clients1 : Mix.Clients [] kind asks1 wire1 wire1 := by
  have key : Mc.Key [107] := by unfold Mc.Key; decide
  have nat : ∀ (t : Bytes) (n : Nat), (t ≠ [] ∧ t.length ≤ 20 ∧ (∀ b ∈ t, b ∈ ([48, 49, 50, 51, 52, 53, 54, 55, 56, 57] : Bytes)) ∧ decimal t = n) → Mc.NatText t n :=
    fun t n h => h
  have ok1 : r1.Ok 5 0 0 := ⟨key, nat _ _ (by decide), by decide, Or.inl ⟨0, nat _ _ (by decide), rfl, by decide⟩, by unfold IsI64; decide, nat _ _ (by decide), by decide, nat _ _ (by decide), by decide⟩
  have hg : Mix.Written .memcache (.mc (.get true [[107]])) gets := .mc (.get (tokens := true) (by simp) (by simpa using key))
  exact clients_two (.cons (.mc (.store (how := .set) ok1 rfl rfl (by simp))) (.cons hg .nil)) (.cons (.resp incr_words incr_enc) .nil)

theorem clients2 : Mix.Clients [] kind asks2 wire2 wire2 := by
  have key : Mc.Key [107] := by unfold Mc.Key; decide
  have nat : ∀ (t : Bytes) (n : Nat), (t ≠ [] ∧ t.length ≤ 20 ∧ (∀ b ∈ t, b ∈ ([48, 49, 50, 51, 52, 53, 54, 55, 56, 57] : Bytes)) ∧ decimal t = n) → Mc.NatText t n :=
    fun t n h => h
  have ok2 : r2.Ok 7 0 2 := ⟨key, nat _ _ (by decide), by decide, Or.inl ⟨0, nat _ _ (by decide), rfl, by decide⟩, by unfold IsI64; decide, nat _ _ (by decide), by decide, nat _ _ (by decide), by decide⟩
  refine clients_two (.cons (.mc (.store (how := .cas 2) ok2 rfl rfl (by simp))) .nil) (.cons (.resp (args := [[71, 69, 84], [107]]) (.get ((spells_iff _ _ (by decide)).2 (by decide))) ?_) .nil)
  exact ⟨[50], _, Many.Example.num (by decide), by decide, .cons (arg (t := [51]) (by decide) (by decide)) (.cons (arg (t := [49]) (by decide) (by decide)) .nil), rfl⟩

theorem addr_ok2 {c : Ctx} {n : Nat} : (Mix.server c n kind [] Wire.Example.sys clock addr).Ok := by
  refine ⟨?_, ?_, ?_⟩
  · intro t u h
    simp only [Mix.server, addr] at h
    split at h <;> split at h <;> omega
  · intro t h
    simp only [Mix.server, addr] at h
    split at h <;> omega
  · intro t h
    simp only [Mix.server, addr, Conc.single] at h
    split at h <;> omega

/-- What is saved: `k` with 42, and the token 3. -/
def saved1 : Nat → List (Bytes × Spec.Item)
  | 0 => [([107], ⟨[52, 50], 0, 5, 3⟩)]
  | _ => []

/-- The file. -/
def savedFile1 : Bytes := (fileOf idCodec saveClk (10 ^ 10) saved1 [1, 0, 3, 2]).getD []

/-- The file is loaded at 800. -/
def loads1 : List (Spec.StoreArgs × Int) := loadStores idCodec (fun _ => 800) (10 ^ 10 + 2000) (readFile savedFile1).1

/-- The idle clients. -/
theorem sched_idle1 {c : Ctx} {n : Nat} {a b : List Bytes} {mem : Shards} {sched : List Nat} {s : Conc.State (Nat × Mix.Loc) Sh} {h : List Nat} (hs : ∀ t ∈ sched, t < 2)
    (h1 : runSched (Mix.server c n kind [] Wire.Example.sys clock addr) sched (Conc.start (fun t => (t, Mix.opened (kind t) [] Wire.Example.sys (clock t) (two a b t))) mem) [] = some (s, h))
    (g0 : (match (s.loc 0).2.job with | .val none => true | _ => false) = true) (g1 : (match (s.loc 1).2.job with | .val none => true | _ => false) = true) :
    ∀ t, (s.loc t).2.job = .val none := by
  intro t
  by_cases e0 : t = 0
  · subst e0
    split at g0
    · assumption
    · cases g0
  · by_cases e1 : t = 1
    · subst e1
      split at g1
      · assumption
      · cases g1
    · obtain ⟨a1, _⟩ := runSched_other h1 (u := t) (fun hm => absurd (hs t hm) (by omega))
      rw [a1]
      unfold Conc.start two
      simp only [if_neg e0, if_neg e1]
      rfl

/-- The order of the threads before the restart. -/
def sched1 : List Nat := List.replicate 10 0 ++ List.replicate 6 1
/-- The order of the threads after the restart. -/
def sched2 : List Nat := List.replicate 5 0 ++ List.replicate 5 1

/-- Both processes; whether all checks hold, and what the clients were sent. -/
def both1 : Option (List Bool × List Bytes × List Nat) :=
  (runSched (Mix.server ctx4 4 kind [] Wire.Example.sys clock addr) sched1
    (Conc.start (fun t => (t, Mix.opened (kind t) [] Wire.Example.sys (clock t) (wire1 t))) (newCache ctx4)) []).bind fun x =>
  match Cache.run ctx4 4 (saveOrd.map fun i => saveCall i (saveClk i)) x.1.mem with
  | .val q =>
    match Cache.run Cache.Example.ctx 2 (loads1.map storeCall) (newCache Cache.Example.ctx) with
    | .val q2 =>
      (runSched (Mix.server Cache.Example.ctx 2 kind [] Wire.Example.sys clock addr) sched2
        (Conc.start (fun t => (t, Mix.opened (kind t) [] Wire.Example.sys (clock t) (wire2 t))) q2.1) []).map fun x2 =>
      ([(match (x.1.loc 0).2.job with | .val none => true | _ => false), (match (x.1.loc 1).2.job with | .val none => true | _ => false), noWrapB 4 q.1,
        decide (q.2.map (·.shown) = saveOrd.map saved1), noWrapB 2 q2.1, noWrapB 2 x2.1.mem,
        (match (x2.1.loc 0).2.job with | .val none => true | _ => false), (match (x2.1.loc 1).2.job with | .val none => true | _ => false)],
        [(x.1.loc 0).2.sent, (x.1.loc 1).2.sent, (x2.1.loc 0).2.sent, (x2.1.loc 1).2.sent], x.2 ++ x2.2)
    | _ => none
  | _ => none

/-- STORED, and `VALUE k 5 2 2` with 41. -/
def sent1 : Bytes := [83, 84, 79, 82, 69, 68, 13, 10, 86, 65, 76, 85, 69, 32, 107, 32, 53, 32, 50, 32, 50, 13, 10, 52, 49, 13, 10, 69, 78, 68, 13, 10]

/-- **C115, negation**, and all hypotheses of `restart_all_served_partial`.  A memcache client stores 41, and asks for it and gets the token 2.  A RESP client counts, and is told 42.  The server is
restarted, and the 42 is in the file, with its token 3; but after the load it has the token 2, as it is the first that the new server stores.  Then the memcache client stores `x` with its token of
before, which it got with 41: it is told STORED, and the 42 is lost. -/
theorem restart_reuses_token : ∃ s' shs1 rs1 shs2 rs2 s2, ctx4.Valid ∧ ctx4.usecas = true ∧ AllInv ctx4 4 (newCache ctx4) ∧ R ctx4 4 0 (newCache ctx4) ⟨fun _ => none, fun _ => 1⟩ ∧
    (∀ b ∈ Wire.Example.sys.version, 32 ≤ b) ∧ (∀ t i, Mix.Fine (kind t) (clock t i)) ∧ (∀ t i, 0 ≤ (clock t i).now) ∧ Mix.Clients [] kind asks1 wire1 wire1 ∧
    (Mix.server ctx4 4 kind [] Wire.Example.sys clock addr).Ok ∧
    Conc.Exec (Mix.server ctx4 4 kind [] Wire.Example.sys clock addr) (fun t => (t, Mix.opened (kind t) [] Wire.Example.sys (clock t) (wire1 t))) (newCache ctx4) s' [0, 0, 1] ∧
    (∀ t, (s'.loc t).2.job = .val none) ∧ (s'.loc 0).2.sent = sent1 ∧ (s'.loc 1).2.sent = [58, 52, 50, 13, 10] ∧
    idCodec.Good ∧ saveOrd.Perm (List.range 4) ∧ [1, 0, 3, 2].Perm (List.range 4) ∧ saveOrd.Pairwise (fun i j => saveClk i ≤ saveClk j) ∧ (∀ i < 4, 0 ≤ saveClk i) ∧
    (∀ i < 4, 0 < saveClk i ∧ IsI64 (saveClk i) ∧ 0 ≤ saveClk i + 10 ^ 10 ∧ saveClk i + 10 ^ 10 < 2 ^ 63) ∧
    Cache.run ctx4 4 (saveOrd.map fun i => saveCall i (saveClk i)) s'.mem = .val (shs1, rs1) ∧ NoWrap 4 shs1 ∧ rs1.map (·.shown) = saveOrd.map saved1 ∧
    fileOf idCodec saveClk (10 ^ 10) saved1 [1, 0, 3, 2] = some savedFile1 ∧ (∀ i < 4, ∀ x ∈ saved1 i, Save.Fits x ∧ x.2.expires + 10 ^ 10 < 2 ^ 63) ∧
    (∀ i < 4, ∀ d, blockData (saveClk i) (saveClk i + 10 ^ 10) (saved1 i) = some d → d.length ≤ lz4Max) ∧
    Cache.Example.ctx.Valid ∧ Cache.Example.ctx.usecas = true ∧
    (∀ i < 4, ∀ x ∈ saved1 i, x.2.expires + 10 ^ 10 - (10 ^ 10 + 2000) < 2 ^ 63) ∧ (∀ i < 4, ∀ x ∈ saved1 i, x.2.expires ≠ 0 → x.2.expires + 10 ^ 10 ≠ 800 + (10 ^ 10 + 2000)) ∧
    loads1.Pairwise (fun a b => a.2 ≤ b.2) ∧ Cache.run Cache.Example.ctx 2 (loads1.map storeCall) (newCache Cache.Example.ctx) = .val (shs2, rs2) ∧ NoWrap 2 shs2 ∧
    (∀ i < 4, saveClk i + 10 ^ 10 ≤ 900 + (10 ^ 10 + 2000)) ∧ (∀ t i, 900 ≤ (clock t i).now) ∧ Mix.Clients [] kind asks2 wire2 wire2 ∧
    (Mix.server Cache.Example.ctx 2 kind [] Wire.Example.sys clock addr).Ok ∧
    Conc.Exec (Mix.server Cache.Example.ctx 2 kind [] Wire.Example.sys clock addr) (fun t => (t, Mix.opened (kind t) [] Wire.Example.sys (clock t) (wire2 t))) shs2 s2 [0, 1] ∧ NoWrap 2 s2.mem ∧
    (s2.loc 0).2.sent = [83, 84, 79, 82, 69, 68, 13, 10] ∧ (s2.loc 1).2.sent = [36, 49, 13, 10, 120, 13, 10] := by
  have hb : both1 = some ([true, true, true, true, true, true, true, true],
    [sent1, [58, 52, 50, 13, 10], [83, 84, 79, 82, 69, 68, 13, 10], [36, 49, 13, 10, 120, 13, 10]], [0, 0, 1, 0, 1]) := by decide +kernel
  unfold both1 at hb
  rw [Option.bind_eq_some_iff] at hb
  obtain ⟨⟨s', h⟩, h1, hb⟩ := hb
  simp only [] at hb
  split at hb
  swap
  · cases hb
  rename_i q hq
  split at hb
  swap
  · cases hb
  rename_i q2 hq2
  rw [Option.map_eq_some_iff] at hb
  obtain ⟨⟨s2, h'⟩, h2, hb⟩ := hb
  simp only [Prod.mk.injEq, List.cons.injEq, and_true] at hb
  obtain ⟨⟨b1, b2, b3, b4, b5, b6, b7, b8⟩, ⟨b12, b13, b9, b10⟩, b11⟩ := hb
  obtain ⟨q, qr⟩ := q
  obtain ⟨q2, qr2⟩ := q2
  have hh : h = [0, 0, 1] ∧ h' = [0, 1] := by
    have : (runSched (Mix.server ctx4 4 kind [] Wire.Example.sys clock addr) sched1
      (Conc.start (fun t => (t, Mix.opened (kind t) [] Wire.Example.sys (clock t) (wire1 t))) (newCache ctx4)) []).map (·.2) = some [0, 0, 1] := by decide +kernel
    rw [h1] at this
    simp only [Option.map_some, Option.some.injEq] at this
    subst this
    exact ⟨rfl, by simpa using b11⟩
  obtain ⟨rfl, rfl⟩ := hh
  have hsaved : ∀ i < 4, ∀ x ∈ saved1 i, x = ([107], ⟨[52, 50], 0, 5, 3⟩) := by
    intro i _ x hx
    rcases i with _ | i
    · simpa [saved1] using hx
    · simp [saved1] at hx
  refine ⟨s', q, qr, q2, qr2, s2, ctx4_valid, rfl, allInv_new ctx4_valid 4, R_new ctx4 4 0, by decide, fine, late, clients1, addr_ok2, runSched_exec .start h1, sched_idle1 (by decide) h1 b1 b2,
    b12, b13, idCodec_good, by decide, by decide, by decide, ?_, ?_, hq, noWrapB_iff.1 b3, of_decide_eq_true b4, ?_, ?_, ?_, ctx4_valid, rfl, ?_, ?_, by decide +kernel, hq2, noWrapB_iff.1 b5, ?_, ?_,
    clients2, addr_ok2, runSched_exec .start h2, noWrapB_iff.1 b6, b9, b10⟩
  · intro i hi; unfold saveClk; omega
  · intro i hi; unfold saveClk IsI64; omega
  · unfold savedFile1
    have : (fileOf idCodec saveClk (10 ^ 10) saved1 [1, 0, 3, 2]).isSome = true := by decide +kernel
    obtain ⟨x, hx⟩ := Option.isSome_iff_exists.1 this
    rw [hx]; rfl
  · intro i hi x hx
    rw [hsaved i hi x hx]
    simp [Save.Fits]
  · have : ∀ i < 4, ((blockData (saveClk i) (saveClk i + 10 ^ 10) (saved1 i)).all fun d => decide (d.length ≤ lz4Max)) = true := by decide +kernel
    intro i hi d hd
    have := this i hi
    rw [hd] at this
    simpa using this
  · intro i hi x hx
    rw [hsaved i hi x hx]
    simp
  · intro i hi x hx
    rw [hsaved i hi x hx]
    simp
  · intro i hi; unfold saveClk; omega
  · intro t i; show (900 : Int) ≤ if t = 0 then 1000 else 900; split <;> decide

/-- The case above meets the hypotheses of `restart_all_served_partial`: whatever else the clients of the new server do, what they see at first is what was saved. -/
example : ∃ evs m m1, evs.map (·.who) = [0, 0, 1] ∧ (∃ rs, Story Wire.Example.sys.version clock asks1 (McWire.ofState (shardIdx ctx4 4) ⟨fun _ => none, fun _ => 1⟩) evs rs (fun _ => []) m) ∧
    Restarted (10 ^ 10 - (10 ^ 10 + 2000)) 900 m m1 := by
  obtain ⟨s', shs1, rs1, shs2, rs2, s2, a1, a2, a3, a4, a5, a6, a7, a8, a9, a10, a11, _, _, b1, b2, b3, b4, b5, b6, b7, b8, b9, b10, b11, b12, c1, c2, c3, c4, c5, c6, c7, d1, d2, d3, d4, d5, d6, _⟩ := restart_reuses_token
  obtain ⟨_, evs, rs, m, e1, e2, _, _, _, m1, _, _, _, _, e3, _⟩ := restart_all_served_partial a1 a2 (by decide) a3 a4 (by intro k it hk; cases hk) a5 a6 a7 a8 a9 a10 a11 b1 b2 b3 b4 b5 b6 b7 b8 b9 b10 b11 b12
    c1 c2 (by decide) (lt := fun _ => 800) (δ' := 10 ^ 10 + 2000) (fun _ => by unfold IsI64; norm_num) c3 (fun i hi x hx h0 _ => c4 i hi x hx h0) (l := loads1) (List.Perm.refl _) c5 c6 c7
    (now1 := 900) (fun _ => by norm_num) d1 a5 a6 d2 d3 d4 d5 d6
  exact ⟨evs, m, m1, e1, ⟨rs, e2⟩, e3⟩

end Verif.Mix.Example
