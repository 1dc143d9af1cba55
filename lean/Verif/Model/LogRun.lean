import Mathlib.Data.Rat.Defs
import Mathlib.Data.Finset.Basic
/-! # What a run shows in its log (C132)

`src/jaqmc/writer/console.py:73-125` and `src/jaqmc/utils/time_tracker.py`.  Formatting of numbers is left
out: a shown field is its name, value and format. -/

namespace Jaqmc.LogRun

/-- `FieldSpec` after parsing (C46), console.py:18-35. -/
structure Field where
  key : String
  alias? : Option String
  fmt : Option String
  deriving DecidableEq

/-- `display_name`, console.py:33-35: an empty alias counts as none. -/
def Field.displayName (f : Field) : String :=
  match f.alias? with
  | none => f.key
  | some a => if a = "" then f.key else a

/-- One shown field: name, value and format. -/
structure Part (V : Type) where
  name : String
  value : V
  fmt : String
  deriving DecidableEq

/-- What one `write` does: the line, if any, and the fields it warns about. -/
structure Shown (V : Type) where
  step : Nat
  parts : List (Part V)
  warned : List String

/-- `values[spec.key]`, console.py:107-109,115: the statistics, which win over the step number. -/
def value {V : Type} (ofStep : Nat → V) (step : Nat) (stats : List (String × V)) (key : String) : Option V :=
  match stats.lookup key with
  | some v => some v
  | none => if key = "step" then some (ofStep step) else none

/-- `ConsoleWriter.write`, console.py:103-125, with the set of fields already warned about.  `stats` has
different names.  The missing fields are a set: repeated fields count once. -/
def write {V : Type} (ofStep : Nat → V) (interval : Nat) (fields : List Field) (warned : List String)
    (step : Nat) (stats : List (String × V)) : List String × Option (Shown V) :=
  if step % interval ≠ 0 then (warned, none)
  else
    let parts := fields.filterMap fun f =>
      (value ofStep step stats f.key).map fun v =>
        Part.mk f.displayName v (match f.fmt with | none => ".4f" | some s => if s = "" then ".4f" else s)
    let missing := (fields.filterMap fun f =>
      if (value ofStep step stats f.key).isSome then none
      else if f.key ∈ warned then none else some f.key).dedup
    (warned ++ missing, some ⟨step, parts, missing⟩)

/-- A sequence of writes. -/
def writes {V : Type} (ofStep : Nat → V) (interval : Nat) (fields : List Field) :
    List String → List (Nat × List (String × V)) → List String × List (Shown V)
  | warned, [] => (warned, [])
  | warned, w :: rest =>
    let r := write ofStep interval fields warned w.1 w.2
    let more := writes ofStep interval fields r.1 rest
    (more.1, r.2.toList ++ more.2)

/-- `TimeTracker`, time_tracker.py:34-53. -/
structure Tracker where
  warmup : Nat
  boundary : Rat
  last : Option Rat
  ticks : Nat

/-- `start`, time_tracker.py:55-59, at the time `now`. -/
def Tracker.start (t : Tracker) (now : Rat) : Tracker := { t with boundary := now, last := none, ticks := 0 }

/-- `__init__`, time_tracker.py:34-53 (a negative number of warm-up steps raises and is not modelled). -/
def Tracker.init (warmup : Nat) (now : Rat) : Tracker := ⟨warmup, now, none, 0⟩

/-- `tick`, time_tracker.py:61-71. -/
def Tracker.tick (t : Tracker) (now : Rat) : Tracker :=
  let ticks := t.ticks + 1
  { t with last := some now, ticks := ticks, boundary := if ticks ≤ t.warmup then now else t.boundary }

/-- `time_per_step`, time_tracker.py:73-87. -/
def Tracker.timePerStep (t : Tracker) : Option Rat :=
  let measured : Int := (t.ticks : Int) - t.warmup
  match t.last with
  | some last => if measured > 0 then some ((last - t.boundary) / measured) else none
  | none => none

end Jaqmc.LogRun
