import Mathlib.Tactic.Common
import Verif.Basic

/-!
C31: start-up, the initial load and the termination signals.

Three parties take steps in any order: the main thread (start-up and the initial load), the thread `sigtermticker`, and the signal
handler, which may run at any moment; once the server runs, clients may also cause saves.  The data file is a value; a save
leaves it alone (failure) or replaces it (success; see `Verif.Save.Atomic` for what happens in between).
-/

namespace Verif.Save.Term

/-- The main thread, `/repo/src/main.c:799-` and `listening`, 421-448. -/
inductive Main where
  /-- before `listening` is called -/
  | boot
  /-- inside `load`, line 433 -/
  | loading
  /-- after the load (or without a file), before line 447 -/
  | ready
  /-- worker threads serve clients (`/repo/src/net.c:1185-`, after `listening` has returned) -/
  | serving
  deriving DecidableEq

/-- The thread `sigtermticker`, `/repo/src/main.c:310-330`. -/
inductive Tick where
  /-- the loop of line 312 -/
  | waiting
  /-- after the loop, line 315 -/
  | woken
  /-- the test of line 315 was true, before line 317 -/
  | quitting
  /-- inside `save`, line 321 -/
  | saving
  /-- after `save`, lines 322-327 -/
  | saved
  deriving DecidableEq

/-- Who ended the process. -/
inductive Exit where
  /-- `cleanwork` or `load` failed, lines 427 and 436 -/
  | startup
  /-- a second signal, line 304 -/
  | forced
  /-- the ticker without a save, line 317 -/
  | unsaved
  /-- the ticker after its save, lines 324 and 327 -/
  | saved
  deriving DecidableEq

/-- The process and the data file.  `attempts` counts the saves of the ticker (for the statement only). -/
structure Proc where
  persist : Bool
  main : Main
  tick : Tick
  sigexit : Bool
  loaded : Bool
  exited : Option Exit
  data : Option Bytes
  attempts : Nat

inductive Step : Proc → Proc → Prop
  /-- no persistence, or no file (line 429): nothing to load -/
  | noLoad {p : Proc} : p.exited = none → p.main = .boot → p.persist = false ∨ p.data = none → Step p { p with main := .ready }
  /-- line 425: `cleanwork` fails -/
  | cleanFails {p : Proc} : p.exited = none → p.main = .boot → p.persist = true → Step p { p with exited := some .startup }
  | startLoad {p : Proc} : p.exited = none → p.main = .boot → p.persist = true → p.data ≠ none → Step p { p with main := .loading }
  | loadFails {p : Proc} : p.exited = none → p.main = .loading → Step p { p with exited := some .startup }
  | loadDone {p : Proc} : p.exited = none → p.main = .loading → Step p { p with main := .ready }
  /-- line 447, and then the workers are started -/
  | setLoaded {p : Proc} : p.exited = none → p.main = .ready → Step p { p with loaded := true, main := .serving }
  /-- a `SAVE` command, successful or not (`/repo/src/cmds.c:893-934`) -/
  | client {p : Proc} (d : Option Bytes) : p.exited = none → p.main = .serving → Step p { p with data := d }
  /-- the first signal, line 306 -/
  | signal {p : Proc} : p.exited = none → p.sigexit = false → Step p { p with sigexit := true }
  /-- a further signal, line 301 -/
  | signalAgain {p : Proc} : p.exited = none → p.sigexit = true → Step p { p with exited := some .forced }
  | wake {p : Proc} : p.exited = none → p.tick = .waiting → p.sigexit = true → Step p { p with tick := .woken }
  /-- line 315 -/
  | decide {p : Proc} : p.exited = none → p.tick = .woken → p.loaded = false ∨ p.persist = false → Step p { p with tick := .quitting }
  /-- line 317 -/
  | quit {p : Proc} : p.exited = none → p.tick = .quitting → Step p { p with exited := some .unsaved }
  /-- lines 319-321 -/
  | startSave {p : Proc} : p.exited = none → p.tick = .woken → p.loaded = true → p.persist = true →
      Step p { p with tick := .saving, attempts := p.attempts + 1 }
  /-- the save fails (`d` is the old contents) or succeeds -/
  | finishSave {p : Proc} (d : Option Bytes) : p.exited = none → p.tick = .saving → Step p { p with tick := .saved, data := d }
  | exit {p : Proc} : p.exited = none → p.tick = .saved → Step p { p with exited := some .saved }

inductive Reach : Proc → Proc → Prop
  | refl {p : Proc} : Reach p p
  | step {p q r : Proc} : Reach p q → Step q r → Reach p r

/-- A new process. -/
def start (persist : Bool) (data : Option Bytes) : Proc := ⟨persist, .boot, .waiting, false, false, none, data, 0⟩

/-- What holds at all times. -/
structure Inv (persist : Bool) (data : Option Bytes) (p : Proc) : Prop where
  same : p.persist = persist
  early : p.loaded = false → p.data = data ∧ p.attempts = 0 ∧ (p.tick = .waiting ∨ p.tick = .woken ∨ p.tick = .quitting)
  main : p.loaded = true ↔ p.main = .serving
  none : p.tick = .waiting ∨ p.tick = .woken ∨ p.tick = .quitting → p.attempts = 0
  one : p.tick = .saving ∨ p.tick = .saved → p.attempts = 1 ∧ p.loaded = true ∧ p.persist = true
  startup : p.exited = some .startup → p.loaded = false
  saved : p.exited = some .saved → p.tick = .saved
  unsaved : p.exited = some .unsaved → p.tick = .quitting
  asked : p.tick ≠ .waiting → p.sigexit = true

theorem inv_step {persist : Bool} {data : Option Bytes} {p q : Proc} (hi : Inv persist data p) (hs : Step p q) : Inv persist data q := by
  obtain ⟨h1, h2, h3, h4, h5, h6, h7, h8, h9⟩ := hi
  cases hs <;> constructor <;> simp_all

/-- **C31.**  In any interleaving of the main thread, the signals, the ticker and the clients: until the initial load has completed — in
particular if it fails, or if a signal ends the process before — the data file is what it was and no save was attempted; the ticker attempts
at most one save, of a loaded cache; and it ends a process with a data file whose load had completed when it looked only after that save. -/
theorem shutdown_respects_load {persist : Bool} {data : Option Bytes} {p : Proc} (h : Reach (start persist data) p) :
    (p.loaded = false → p.data = data ∧ p.attempts = 0) ∧ (p.exited = some .startup → p.data = data ∧ p.attempts = 0) ∧
    p.attempts ≤ 1 ∧ (0 < p.attempts → p.loaded = true ∧ p.sigexit = true) ∧ (p.exited = some .saved → p.attempts = 1) := by
  have hi : Inv persist data p := by
    induction h with
    | refl => constructor <;> simp [start]
    | step _ hs ih => exact inv_step ih hs
  obtain ⟨h1, h2, h3, h4, h5, h6, h7, h8, h9⟩ := hi
  refine ⟨fun h => ⟨(h2 h).1, (h2 h).2.1⟩, fun h => ⟨(h2 (h6 h)).1, (h2 (h6 h)).2.1⟩, ?_, ?_, fun h => (h5 (Or.inr (h7 h))).1⟩
  · cases ht : p.tick <;> simp_all
  · intro hp
    cases ht : p.tick <;> simp_all

/-- The same from the ticker's side: once it has seen the signal with the load completed, the process ends by itself only after one
finished save. -/
theorem loaded_process_saves_before_exit {persist : Bool} {data : Option Bytes} {p q : Proc} (h : Reach (start persist data) p)
    (hw : p.exited = none ∧ (p.tick = .waiting ∨ p.tick = .woken)) (hl : p.loaded = true) (hp : persist = true) (h' : Reach p q)
    (hq : q.exited ≠ none) : q.exited = some .forced ∨ q.exited = some .saved ∧ q.attempts = 1 := by
  have hi : Inv persist data p := by
    clear hw hl h'
    induction h with
    | refl => constructor <;> simp [start]
    | step _ hs ih => exact inv_step ih hs
  have hj : Inv persist data q ∧ q.loaded = true ∧ q.tick ≠ .quitting ∧ q.exited ≠ some .startup := by
    clear hq
    induction h' with
    | refl =>
      refine ⟨hi, hl, ?_, by rw [hw.1]; simp⟩
      rcases hw.2 with h | h <;> rw [h] <;> simp
    | step _ hs ih =>
      obtain ⟨ih, i1, i2, i3⟩ := ih
      refine ⟨inv_step ih hs, ?_⟩
      obtain ⟨h1, h2, h3, h4, h5, h6, h7, h8, h9⟩ := ih
      cases hs <;> simp_all
  obtain ⟨⟨h1, h2, h3, h4, h5, h6, h7, h8, h9⟩, i1, i2, i3⟩ := hj
  cases he : q.exited with
  | none => exact absurd he hq
  | some e => cases e <;> simp_all

/-! ### Concrete cases -/

/-- A signal during the load: the process ends with the file as it was. -/
example : ∃ p, Reach (start true (some [1])) p ∧ p.exited = some .unsaved ∧ p.data = some [1] := by
  have r1 := Reach.step (Reach.refl (p := start true (some [1]))) (.startLoad rfl rfl rfl (by simp [start]))
  have r2 := r1.step (.signal rfl rfl)
  have r3 := r2.step (.wake rfl rfl rfl)
  have r4 := r3.step (.decide rfl rfl (Or.inl rfl))
  have r5 := r4.step (.quit rfl rfl)
  exact ⟨_, r5, rfl, rfl⟩

/-- Hypotheses of `loaded_process_saves_before_exit`: a signal after the load. -/
example : ∃ p q, Reach (start true (some [1])) p ∧ (p.exited = none ∧ (p.tick = .waiting ∨ p.tick = .woken)) ∧ p.loaded = true ∧ Reach p q ∧
    q.exited = some .saved ∧ q.data = some [2] := by
  have r1 := Reach.step (Reach.refl (p := start true (some [1]))) (.startLoad rfl rfl rfl (by simp [start]))
  have r2 := r1.step (.loadDone rfl rfl)
  have r3 := r2.step (.setLoaded rfl rfl)
  have q1 := Reach.step .refl (Step.signal (p := ⟨true, .serving, .waiting, false, true, none, some [1], 0⟩) rfl rfl)
  have q2 := q1.step (.wake rfl rfl rfl)
  have q3 := q2.step (.startSave rfl rfl rfl rfl)
  have q4 := q3.step (.finishSave (some [2]) rfl rfl)
  have q5 := q4.step (.exit rfl rfl)
  exact ⟨_, _, r3, ⟨rfl, Or.inl rfl⟩, rfl, q5, rfl, rfl⟩

end Verif.Save.Term
