import Verif.Shard.Abs

/-!
Eviction and `storeop` on the abstract shard.
-/

namespace Verif.Shard

open Verif.Map Function

/-! ### Eviction -/

theorem evictEntry_spec {c : Ctx} (hv : c.Valid) {m : Tbl} (h : Inv c m) {e : Ent} (he : e ∈ m.cont) :
    (∃ m', evictEntry c m e = .val m' ∧ Inv c m' ∧ m'.ovf = m.ovf ∧
      (m.ovf = false → m'.cont + {e} = m.cont)) ∨ evictEntry c m e = .abort true := by
  obtain ⟨m1, r, hr, hi1, hov1, ht1, hnone, hsome⟩ := mapDelete_spec hv h e.key
  unfold evictEntry
  rw [hr]
  simp only [ofLoop, Out.bind, assert]
  by_cases hre : r = some e
  · left
    subst hre
    obtain ⟨hk, hc, hes, hlt, hmem, hcont⟩ := hsome e rfl
    simp only [beq_self_eq_true, if_true]
    exact ⟨m1, rfl, hi1, hov1, hcont⟩
  · right
    rw [if_neg (by simpa using hre)]
    simp only []
    congr 1
    by_contra hc
    have ho1 : m1.ovf = false := by simpa using hc
    rw [hov1] at ho1
    cases r with
    | none => exact (hnone rfl).2 ho1 e he rfl
    | some x =>
      obtain ⟨hk, _, _, _, hmem, _⟩ := hsome x rfl
      have := Multiset.inj_on_of_nodup_map (h.nodup ho1) x hmem e he hk
      exact hre (by rw [this])

/-- What the search of `auto_evict_entry` may return. -/
def PickOk (c : Ctx) (m : Tbl) (hash : Nat) (now : Int) : Pick → Prop
  | .expired e => e ∈ m.cont ∧ e.alive now = false ∧ (m.ovf = false → c.hash24 e.key ≠ hash)
  | .cands l => ∀ e ∈ l, e ∈ m.cont ∧ e.alive now = true ∧ (m.ovf = false → c.hash24 e.key ≠ hash)

/-- Everything the search of `auto_evict_entry` picks is in the table, with another hash. -/
theorem pickLoop_spec {c : Ctx} {m : Tbl} (h : Inv c m) (hash : Nat) (now : Int) (rem i : Nat) (acc : List Ent)
    (hacc : ∀ e ∈ acc, e ∈ m.cont ∧ e.alive now = true ∧ (m.ovf = false → c.hash24 e.key ≠ hash)) :
    PickOk c m hash now (pickLoop m hash now rem i acc) := by
  obtain ⟨k, hk⟩ := h.pow
  have hpos : 0 < m.nbuckets := by have := h.ge; omega
  induction rem generalizing i acc with
  | zero => unfold pickLoop; exact hacc
  | succ rem ih =>
    unfold pickLoop
    rw [and_mask hk]
    by_cases hl : acc.length < 2
    · rw [if_pos hl]
      simp only []
      have hlt := Nat.mod_lt (i + hash) hpos
      split
      · exact ih _ _ hacc
      · rename_i hcond
        have hc1 : (m.buckets ((i + hash) % m.nbuckets)).dib ≠ 0 := fun hh => hcond (by simp [hh])
        have hc2 : (m.buckets ((i + hash) % m.nbuckets)).hash ≠ hash := fun hh => hcond (by simp [hh])
        have hin : (m.buckets ((i + hash) % m.nbuckets)).ent ∈ m.cont := mem_cont.2 ⟨_, hlt, hc1, rfl⟩
        have hhash : m.ovf = false → c.hash24 (m.buckets ((i + hash) % m.nbuckets)).ent.key ≠ hash := by
          intro ho hh
          exact hc2 (by rw [(h.wf ho).hash _ hlt hc1, hh])
        split
        · rename_i ha
          exact ⟨hin, by simpa using ha, hhash⟩
        · rename_i ha
          apply ih
          intro e he
          rcases List.mem_append.1 he with h1 | h1
          · exact hacc e h1
          · have : e = (m.buckets ((i + hash) % m.nbuckets)).ent := by simpa using h1
            rw [this]
            exact ⟨hin, by simpa using ha, hhash⟩
    · rw [if_neg hl]; exact hacc

/-- What `auto_evict_entry` may do. -/
def Evicted (now : Int) (v : Ent) (ev : Ev) : Prop :=
  (v.alive now = false ∧ ev = .expired v) ∨ (v.alive now = true ∧ ev = .lowmem v)

theorem autoEvict_spec {c : Ctx} (hv : c.Valid) {m : Tbl} (h : Inv c m) (hash : Nat) (now : Int) :
    (∃ m' evs, autoEvict c m hash now = .val (m', evs) ∧ Inv c m' ∧ m'.ovf = m.ovf ∧
      (m.ovf = false →
        (evs = [] ∧ m' = m) ∨
        ∃ v ev, evs = [ev] ∧ Evicted now v ev ∧ c.hash24 v.key ≠ hash ∧ m'.cont + {v} = m.cont)) ∨
    autoEvict c m hash now = .abort true := by
  have hp := pickLoop_spec (c := c) h hash now (m.nbuckets - 1) 1 [] (by simp)
  unfold autoEvict
  have key : ∀ v ev, v ∈ m.cont → (m.ovf = false → c.hash24 v.key ≠ hash) → Evicted now v ev →
      (∃ m' evs, (evictEntry c m v).bind (fun m' => .val (m', [ev])) = .val (m', evs) ∧ Inv c m' ∧
        m'.ovf = m.ovf ∧ (m.ovf = false → (evs = [] ∧ m' = m) ∨
          ∃ v ev, evs = [ev] ∧ Evicted now v ev ∧ c.hash24 v.key ≠ hash ∧ m'.cont + {v} = m.cont)) ∨
      (evictEntry c m v).bind (fun m' => .val (m', [ev])) = .abort true := by
    intro v ev hvm hh hev
    rcases evictEntry_spec hv h hvm with ⟨m', hm', hi', ho', hc'⟩ | ha
    · left
      rw [hm']
      exact ⟨m', [ev], rfl, hi', ho', fun ho => Or.inr ⟨v, ev, rfl, hev, hh ho, hc' ho⟩⟩
    · right; rw [ha]; rfl
  cases hpick : pickLoop m hash now (m.nbuckets - 1) 1 [] with
  | expired e =>
    rw [hpick] at hp
    exact key e _ hp.1 hp.2.2 (Or.inl ⟨hp.2.1, rfl⟩)
  | cands l =>
    rw [hpick] at hp
    unfold PickOk at hp
    match l, hp with
    | [], _ => left; exact ⟨m, [], rfl, h, rfl, fun _ => Or.inl ⟨rfl, rfl⟩⟩
    | [e], hp =>
      have := hp e (by simp)
      exact key e _ this.1 this.2.2 (Or.inr ⟨this.2.1, rfl⟩)
    | [e0, e1], hp =>
      have h0 := hp e0 (by simp)
      have h1 := hp e1 (by simp)
      simp only []
      by_cases ht : e0.time < e1.time
      · rw [if_pos ht]; exact key e0 _ h0.1 h0.2.2 (Or.inr ⟨h0.2.1, rfl⟩)
      · rw [if_neg ht]; exact key e1 _ h1.1 h1.2.2 (Or.inr ⟨h1.2.1, rfl⟩)
    | a :: b :: d :: l, hp => left; exact ⟨m, [], rfl, h, rfl, fun _ => Or.inl ⟨rfl, rfl⟩⟩

/-! ### Store -/

/-- The live entry of a key. -/
def PS.live (p : PS) (now : Int) (key : Bytes) : Option Ent :=
  match p.f key with
  | some e => if e.alive now then some e else none
  | none => none

/-- The notification for an expired entry in the way. -/
def PS.deadEvs (p : PS) (now : Int) (key : Bytes) : List Ev :=
  match p.f key with
  | some e => if e.alive now then [] else [.expired e]
  | none => []

/-- Expiry of the entry to be stored. -/
def PS.expiry (p : PS) (now : Int) (key : Bytes) (o : StoreOpts) (req : Int) : Int :=
  if o.keepttl then ((p.live now key).map Ent.expires).getD req else req

/-- The entry to be stored. -/
def PS.newEnt (p : PS) (c : Ctx) (now : Int) (key val : Bytes) (o : StoreOpts) (req : Int) : Ent :=
  mkEnt c key val (p.expiry now key o req) o.flags (p.cas + 1) now

/-- `storeop` on the abstract shard, when memory suffices. -/
def PStore (c : Ctx) (now : Int) (key val : Bytes) (o : StoreOpts) (req : Int) (p : PS) (q : PR) : Prop :=
  let e := p.newEnt c now key val o req
  match p.live now key with
  | some old =>
    if putBack c o old then q = ⟨⟨p.f, p.cas + 1⟩, .found, [], []⟩
    else if refuses o.entry old then q = ⟨⟨p.f, p.cas + 1⟩, .canceled, [], shown o.entry old⟩
    else q = ⟨⟨update p.f key (some e), p.cas + 1⟩, .replaced, [.replaced e old], shown o.entry old⟩
  | none =>
    if o.xx || o.casop then q = ⟨⟨update p.f key none, p.cas + 1⟩, .notfound, p.deadEvs now key, []⟩
    else
      q = ⟨⟨update p.f key (some e), p.cas + 1⟩, .inserted, p.deadEvs now key ++ [.inserted e], []⟩ ∨
      (o.lowmem = true ∧ p.f key = none ∧ ∃ v ev, Evicted now v ev ∧ v.key ≠ key ∧ p.f v.key = some v ∧
        q = ⟨⟨update (update p.f key (some e)) v.key none, p.cas + 1⟩, .inserted, [ev, .inserted e], []⟩)

/-- The operation is refused for lack of memory. -/
def storeNomem (c : Ctx) (mem : Mem) (o : StoreOpts) (s : Sh) : Bool :=
  (o.lowmem && c.noevict) || (decide (s.map.growat ≤ s.map.count) && !mem.tbl)

theorem storeExpires_spec {c : Ctx} (hv : c.Valid) (now : Int) (key : Bytes) (o : StoreOpts) {s : Sh}
    (h : Inv c s.map) {req : Int} (hreq : reqExpires o now = .val req) :
    ∃ ex, storeExpires c now key o s = .val ex ∧
      (s.map.ovf = false → ∀ p, SRep s p → ex = p.expiry now key o req) := by
  unfold storeExpires
  rw [hreq]
  simp only [Out.bind]
  by_cases hk : o.keepttl = true
  · rw [if_pos hk]
    obtain ⟨g, hg, hs, hn⟩ := getBucket_spec hv h key
    rw [hg]
    simp only [ofLoop]
    cases g with
    | none =>
      refine ⟨req, rfl, ?_⟩
      intro ho p hp
      have := rep_none hp.1 (hn rfl ho)
      unfold PS.expiry PS.live
      rw [this, if_pos hk]; rfl
    | some i =>
      obtain ⟨hi, hd, hki⟩ := hs i rfl
      refine ⟨_, rfl, ?_⟩
      intro ho p hp
      have hf : p.f key = some (s.map.buckets i).ent := (hp.1 _ _).2 ⟨mem_cont.2 ⟨i, hi, hd, rfl⟩, hki⟩
      unfold PS.expiry PS.live
      rw [hf, if_pos hk]
      simp only []
      split <;> rfl
  · rw [if_neg hk]
    refine ⟨req, rfl, ?_⟩
    intro ho p hp
    unfold PS.expiry
    rw [if_neg hk]

theorem doPutBack_spec {c : Ctx} (hv : c.Valid) (mem : Mem) {s : Sh} {m : Tbl} (hi : Inv c m) {old entry : Ent}
    (hlt : m.count < m.growat) (hk : m.ovf = false → old.key = entry.key) (evs : List Ev) (st : Status) (seen : List Ent) :
    (∃ r, doPutBack c mem s m old entry evs st seen = .val r ∧ Inv c r.sh.map ∧ r.sh.cas = s.cas ∧
      r.status = st ∧ r.evs = evs ∧ r.seen = seen ∧
      (r.sh.map.ovf = false → m.ovf = false ∧
        ∀ f, Rep m.cont f → Rep r.sh.map.cont (update f old.key (some old)))) ∨
    (doPutBack c mem s m old entry evs st seen = .abort true) ∨
    (doPutBack c mem s m old entry evs st seen = .abort false ∧ m.ovf = false ∧ entry ∉ m.cont) := by
  obtain ⟨m3, r3, hr3, hi3, hov3, hn3, _, hs3⟩ := mapInsert_spec (e := old) (ok := mem.tbl2) hv hi
  unfold doPutBack
  rw [hr3]
  simp only [ofLoop, Out.bind, assert]
  cases r3 with
  | none =>
    exfalso
    have := hn3.1 rfl
    omega
  | some e =>
    obtain ⟨_, _, _, _, heff⟩ := hs3 e rfl
    simp only []
    by_cases he : e = some entry
    · left
      subst he
      simp only [beq_self_eq_true, if_true]
      refine ⟨_, rfl, hi3, rfl, rfl, rfl, rfl, ?_⟩
      intro ho
      exact ⟨hov3 ho, fun f hf => (rep_insert hf (heff ho) (hi3.nodup ho)).2⟩
    · right
      rw [if_neg (by simpa using he)]
      simp only []
      cases ho : m3.ovf with
      | true => left; rfl
      | false =>
        right
        refine ⟨rfl, hov3 ho, ?_⟩
        intro hmem
        obtain ⟨f, hf⟩ := rep_exists (hi.nodup (hov3 ho))
        have h1 := (rep_insert hf (heff ho) (hi3.nodup ho)).1
        have h2 := (hf entry.key entry).2 ⟨hmem, rfl⟩
        rw [hk (hov3 ho), h2] at h1
        exact he h1

theorem storeOp_spec {c : Ctx} (hv : c.Valid) (mem : Mem) (now : Int) (key val : Bytes) (o : StoreOpts) {s : Sh}
    (h : Inv c s.map) {req : Int} (hreq : reqExpires o now = .val req) (hmem : mem.ent = true) :
    (∃ r, storeOp c mem now key val o s = .val r ∧ Inv c r.sh.map ∧
      (storeNomem c mem o s = true → r.status = .nomem) ∧
      (r.sh.map.ovf = false → s.map.ovf = false ∧ ∀ p, SRep s p →
        ∃ q : PR, SRep r.sh q.ps ∧ r.status = q.status ∧ r.evs = q.evs ∧ r.seen = q.seen ∧
          if storeNomem c mem o s then q = ⟨⟨p.f, p.cas + 1⟩, .nomem, [], []⟩
          else PStore c now key val o req p q)) ∨
    storeOp c mem now key val o s = .abort true := by
  obtain ⟨ex, hex, hexp⟩ := storeExpires_spec hv now key o h hreq
  unfold storeOp
  rw [hex]
  simp only [Out.bind, hmem, Bool.not_true, if_false, Bool.false_eq_true]
  by_cases hlm : (o.lowmem && c.noevict) = true
  · rw [hlm]
    simp only [if_true]
    left
    have hsn : storeNomem c mem o s = true := by unfold storeNomem; rw [hlm]; rfl
    refine ⟨_, rfl, h, fun _ => rfl, ?_⟩
    intro ho
    refine ⟨ho, ?_⟩
    intro p hp
    refine ⟨_, ?_, ?_, ?_, ?_, by rw [hsn]; rfl⟩
    · exact ⟨hp.1, by rw [← hp.2]⟩
    · rfl
    · rfl
    · rfl
  · have hlm' : (o.lowmem && c.noevict) = false := by simpa using hlm
    rw [hlm']
    simp only [if_false, Bool.false_eq_true]
    set entry := mkEnt c key val ex o.flags (s.cas + 1) now with hentry
    have hek : entry.key = key := rfl
    obtain ⟨m1, r1, hr1, hi1, hov1, hn1, hsame1, hs1⟩ := mapInsert_spec (e := entry) (ok := mem.tbl) hv h
    rw [hr1]
    simp only [ofLoop]
    cases r1 with
    | none =>
      simp only []
      left
      have hcond := hn1.1 rfl
      have hsn : storeNomem c mem o s = true := by
        unfold storeNomem
        simp [hcond.1, hcond.2]
      have hm1 := hsame1 rfl
      subst hm1
      refine ⟨_, rfl, h, fun _ => rfl, ?_⟩
      intro ho
      refine ⟨ho, ?_⟩
      intro p hp
      refine ⟨_, ?_, ?_, ?_, ?_, by rw [hsn]; rfl⟩
      · exact ⟨hp.1, by rw [← hp.2]⟩
      · rfl
      · rfl
      · rfl
    | some old0 =>
      have hsn : storeNomem c mem o s = false := by
        have : ¬ (s.map.growat ≤ s.map.count ∧ mem.tbl = false) := fun hc => by
          have := hn1.2 hc; simp at this
        unfold storeNomem
        rw [hlm', Bool.false_or]
        by_contra hc
        simp at hc
        exact this hc
      obtain ⟨hcnt, htot, hsz, hroom, heff⟩ := hs1 old0 rfl
      rw [hsn]
      simp only [Bool.false_eq_true, false_imp_iff, if_false, true_and]
      -- the abstract view of the insertion
      have habs : m1.ovf = false → ∀ p, SRep s p → s.map.ovf = false ∧ old0 = p.f key ∧
          Rep m1.cont (update p.f key (some entry)) ∧ entry = p.newEnt c now key val o req := by
        intro ho p hp
        have ho0 := hov1 ho
        have := rep_insert hp.1 (heff ho) (hi1.nodup ho)
        refine ⟨ho0, this.1, this.2, ?_⟩
        rw [hentry, hexp ho0 p hp, hp.2]; rfl
      have hexists : m1.ovf = false → ∃ p, SRep s p := by
        intro ho
        obtain ⟨f, hf⟩ := rep_exists (h.nodup (hov1 ho))
        exact ⟨⟨f, s.cas⟩, hf, rfl⟩
      have hin : m1.ovf = false → entry ∈ m1.cont := by
        intro ho
        obtain ⟨p, hp⟩ := hexists ho
        have := (habs ho p hp).2.2.1
        exact ((this key entry).1 (by rw [update_self])).1
      -- no live old entry
      have hnoold : ∀ evs, (m1.ovf = false → ∀ p, SRep s p → p.live now key = none ∧ evs = p.deadEvs now key) →
          (∃ r, (if o.xx || o.casop then
              (ofLoop (mapDelete c m1 key)).bind fun (m2, r) =>
                (assert m2 (r == some entry)).bind fun _ =>
                  .val ⟨{ s with cas := s.cas + 1, map := m2 }, .notfound, evs, []⟩
            else if o.lowmem && decide (m1.count > s.map.count) then
              (autoEvict c m1 (c.hash24 key) now).bind fun (m2, ev2) =>
                .val ⟨{ s with cas := s.cas + 1, map := m2 }, .inserted, evs ++ ev2 ++ [.inserted entry], []⟩
            else .val ⟨{ s with cas := s.cas + 1, map := m1 }, .inserted, evs ++ [.inserted entry], []⟩ : Out Res) = .val r ∧
            Inv c r.sh.map ∧
            (r.sh.map.ovf = false → s.map.ovf = false ∧ ∀ p, SRep s p →
              ∃ q : PR, SRep r.sh q.ps ∧ r.status = q.status ∧ r.evs = q.evs ∧ r.seen = q.seen ∧
                PStore c now key val o req p q)) ∨
          (if o.xx || o.casop then
              (ofLoop (mapDelete c m1 key)).bind fun (m2, r) =>
                (assert m2 (r == some entry)).bind fun _ =>
                  .val ⟨{ s with cas := s.cas + 1, map := m2 }, .notfound, evs, []⟩
            else if o.lowmem && decide (m1.count > s.map.count) then
              (autoEvict c m1 (c.hash24 key) now).bind fun (m2, ev2) =>
                .val ⟨{ s with cas := s.cas + 1, map := m2 }, .inserted, evs ++ ev2 ++ [.inserted entry], []⟩
            else .val ⟨{ s with cas := s.cas + 1, map := m1 }, .inserted, evs ++ [.inserted entry], []⟩ : Out Res) = .abort true := by
        intro evs hlive
        by_cases hx : (o.xx || o.casop) = true
        · rw [if_pos hx]
          obtain ⟨m2, r, hr, hi2, hov2, ht2, hnone, hsome⟩ := mapDelete_spec hv hi1 key
          rw [hr]
          simp only [ofLoop, Out.bind, assert]
          by_cases hre : r = some entry
          · left
            subst hre
            simp only [beq_self_eq_true, if_true]
            refine ⟨_, rfl, hi2, ?_⟩
            intro ho
            simp only [] at ho
            rw [hov2] at ho
            refine ⟨hov1 ho, ?_⟩
            intro p hp
            obtain ⟨_, _, hrep, _⟩ := habs ho p hp
            obtain ⟨hl, hev⟩ := hlive ho p hp
            obtain ⟨_, _, _, _, _, hcont⟩ := hsome entry rfl
            have := (rep_delete hrep (hcont ho) (hi1.nodup ho)).2
            rw [hek, update_idem] at this
            refine ⟨⟨⟨update p.f key none, p.cas + 1⟩, .notfound, p.deadEvs now key, []⟩, ⟨this, by rw [← hp.2]⟩, rfl, hev, rfl, ?_⟩
            unfold PStore
            simp only [hl, hx, if_true]
          · right
            rw [if_neg (by simpa using hre)]
            simp only []
            congr 1
            by_contra hc
            have ho : m2.ovf = false := by simpa using hc
            rw [hov2] at ho
            cases r with
            | none => exact (hnone rfl).2 ho entry (hin ho) rfl
            | some x =>
              obtain ⟨hk, _, _, _, hmem', _⟩ := hsome x rfl
              have := Multiset.inj_on_of_nodup_map (hi1.nodup ho) x hmem' entry (hin ho) hk
              exact hre (by rw [this])
        · rw [if_neg hx]
          have hins : m1.ovf = false → ∀ p, SRep s p → PStore c now key val o req p
              ⟨⟨update p.f key (some entry), p.cas + 1⟩, .inserted, evs ++ [.inserted entry], []⟩ := by
            intro ho p hp
            obtain ⟨_, _, _, hent⟩ := habs ho p hp
            obtain ⟨hl, hev⟩ := hlive ho p hp
            unfold PStore
            simp only [hl, if_neg hx]
            left
            rw [hent, hev]
          by_cases hlow : (o.lowmem && decide (m1.count > s.map.count)) = true
          · rw [if_pos hlow]
            rcases autoEvict_spec hv hi1 (c.hash24 key) now with ⟨m2, ev2, ha, hi2, hov2, hwhat⟩ | hab
            · left
              rw [ha]
              simp only [Out.bind]
              refine ⟨_, rfl, hi2, ?_⟩
              intro ho
              simp only [] at ho
              rw [hov2] at ho
              refine ⟨hov1 ho, ?_⟩
              intro p hp
              obtain ⟨_, hold, hrep, hent⟩ := habs ho p hp
              obtain ⟨hl, hev⟩ := hlive ho p hp
              rcases hwhat ho with ⟨rfl, rfl⟩ | ⟨v, ev, rfl, hevd, hvh, hcont⟩
              · refine ⟨_, ⟨hrep, by rw [← hp.2]⟩, rfl, ?_, rfl, hins ho p hp⟩
                simp
              · have hvk : v.key ≠ key := fun hk => hvh (by rw [hk])
                obtain ⟨hv1, hv2⟩ := rep_delete hrep hcont (hi1.nodup ho)
                rw [update_of_ne hvk] at hv1
                have hgrew : m1.count > s.map.count := by
                  have := (Bool.and_eq_true _ _ ▸ hlow).2
                  simpa using this
                have hkn : p.f key = none := by
                  rw [← hold]
                  by_contra hne
                  rw [if_neg hne] at hcnt
                  omega
                have hde : p.deadEvs now key = [] := by unfold PS.deadEvs; rw [hkn]
                refine ⟨⟨⟨update (update p.f key (some entry)) v.key none, p.cas + 1⟩, .inserted, [ev, .inserted entry], []⟩,
                  ⟨hv2, by rw [← hp.2]⟩, rfl, ?_, rfl, ?_⟩
                · simp [hev, hde]
                · unfold PStore
                  simp only [hl, if_neg hx]
                  right
                  refine ⟨(Bool.and_eq_true _ _ ▸ hlow).1, hkn, v, ev, hevd, hvk, hv1, ?_⟩
                  rw [hent]
            · right; rw [hab]; rfl
          · rw [if_neg hlow]
            left
            refine ⟨_, rfl, hi1, ?_⟩
            intro ho
            refine ⟨hov1 ho, ?_⟩
            intro p hp
            obtain ⟨_, _, hrep, _⟩ := habs ho p hp
            exact ⟨_, ⟨hrep, by rw [← hp.2]⟩, rfl, rfl, rfl, hins ho p hp⟩
      cases old0 with
      | none =>
        simp only [if_false, Bool.false_eq_true]
        apply hnoold []
        intro ho p hp
        obtain ⟨_, hold, _, _⟩ := habs ho p hp
        unfold PS.live PS.deadEvs
        rw [← hold]
        exact ⟨rfl, rfl⟩
      | some old =>
        by_cases ha : old.alive now = true
        · simp only [ha, Bool.not_true, if_false, Bool.false_eq_true]
          have hokey : m1.ovf = false → old.key = entry.key := by
            intro ho; exact (heff ho).2.1
          have hlive : m1.ovf = false → ∀ p, SRep s p → p.live now key = some old := by
            intro ho p hp
            obtain ⟨_, hold, _, _⟩ := habs ho p hp
            unfold PS.live
            rw [← hold]
            simp [ha]
          have hpb : ∀ st seen, (m1.ovf = false → ∀ p, SRep s p →
                PStore c now key val o req p ⟨⟨p.f, p.cas + 1⟩, st, [], seen⟩) →
              (∃ r, doPutBack c mem { s with cas := s.cas + 1 } m1 old entry [] st seen = .val r ∧ Inv c r.sh.map ∧
                (r.sh.map.ovf = false → s.map.ovf = false ∧ ∀ p, SRep s p →
                  ∃ q : PR, SRep r.sh q.ps ∧ r.status = q.status ∧ r.evs = q.evs ∧ r.seen = q.seen ∧
                    PStore c now key val o req p q)) ∨
              doPutBack c mem { s with cas := s.cas + 1 } m1 old entry [] st seen = .abort true := by
            intro st seen hspec
            have hlt1 := hroom (by simp)
            rcases doPutBack_spec hv mem (s := { s with cas := s.cas + 1 }) hi1 hlt1 hokey [] st seen with
              ⟨r, hr, hir, hcas, hst, hev, hsn', hor⟩ | hab | ⟨hab, ho1, hnin⟩
            · left
              refine ⟨r, hr, hir, ?_⟩
              intro ho
              obtain ⟨ho1, hrep⟩ := hor ho
              refine ⟨hov1 ho1, ?_⟩
              intro p hp
              obtain ⟨_, hold, hrep1, _⟩ := habs ho1 p hp
              have := hrep _ hrep1
              rw [hokey ho1, hek, update_idem, hold, update_eq_self] at this
              exact ⟨_, ⟨this, by rw [← hp.2]; exact hcas⟩, hst, hev, hsn', hspec ho1 p hp⟩
            · right; exact hab
            · exact absurd (hin ho1) hnin
          by_cases hp1 : putBack c o old = true
          · rw [if_pos hp1]
            apply hpb
            intro ho p hp
            unfold PStore
            simp only [hlive ho p hp, if_pos hp1]
          · rw [if_neg hp1]
            by_cases hp2 : refuses o.entry old = true
            · rw [if_pos hp2]
              apply hpb
              intro ho p hp
              unfold PStore
              simp only [hlive ho p hp, if_neg hp1, if_pos hp2]
            · rw [if_neg hp2]
              left
              refine ⟨_, rfl, hi1, ?_⟩
              intro ho
              refine ⟨hov1 ho, ?_⟩
              intro p hp
              obtain ⟨_, _, hrep, hent⟩ := habs ho p hp
              refine ⟨⟨⟨update p.f key (some entry), p.cas + 1⟩, .replaced, [.replaced entry old], shown o.entry old⟩,
                ⟨hrep, by rw [← hp.2]⟩, rfl, rfl, rfl, ?_⟩
              unfold PStore
              simp only [hlive ho p hp, if_neg hp1, if_neg hp2]
              rw [hent]
        · have ha2 : old.alive now = false := by simpa using ha
          simp only [ha2, Bool.not_false, if_true]
          apply hnoold [.expired old]
          intro ho p hp
          obtain ⟨_, hold, _, _⟩ := habs ho p hp
          unfold PS.live PS.deadEvs
          rw [← hold]
          simp [ha2]

end Verif.Shard
