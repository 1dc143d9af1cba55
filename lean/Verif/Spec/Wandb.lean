import Verif.Model.Wandb
/-! What C148 speaks about. -/

namespace Jaqmc.Wandb.Spec
open Jaqmc.Wandb

/-- What a stage writes before it ends or something raises. -/
def written : List Op → List (ℕ × List (String × Value))
  | [] => []
  | .raise :: _ => []
  | .write step stats :: ops => (step, stats) :: written ops

/-- The real scalars of one write, if there are any. -/
def visible (e : ℕ × List (String × Value)) : Option (ℕ × List (String × ℝ)) :=
  let l := e.2.filterMap fun kv => match kv.2 with
    | .real x => some (kv.1, x)
    | _ => none
  if l = [] then none else some (e.1, l)

/-- All that the stages of a history write, in order. -/
def wanted (acts : List Act) : List (ℕ × List (String × ℝ)) :=
  (acts.flatMap fun a => match a with
    | .stage _ _ ops => written ops
    | _ => []).filterMap visible

/-- The contents of an event that logs something. -/
def logged : Event → Option (ℕ × List (String × ℝ))
  | .log _ step stats => some (step, stats)
  | _ => none

/-- The run an event logs to. -/
def logRun : Event → Option ℕ
  | .log r _ _ => some r
  | _ => none

/-- The run an event starts. -/
def starts : Event → Option ℕ
  | .init r _ _ _ _ => some r
  | .userInit r => some r
  | _ => none

/-- The run an event ends. -/
def ends : Event → Option ℕ
  | .finish r => some r
  | .userFinish r => some r
  | _ => none

/-- The runs open after some events, starting with `o`; `none` if an event is out of place: a run started while
one is open or with a number used before, or something logged to, or ended, that is not the open run. -/
def play : List Event → Option (Option ℕ × ℕ) → Option (Option ℕ × ℕ)
  | [], o => o
  | e :: l, o => play l (o.bind fun s => match e with
    | .init r _ _ _ _ => if s.1 = none ∧ r = s.2 then some (some r, s.2 + 1) else none
    | .userInit r => if s.1 = none ∧ r = s.2 then some (some r, s.2 + 1) else none
    | .log r _ _ => if s.1 = some r then some s else none
    | .finish r => if s.1 = some r then some (none, s.2) else none
    | .userFinish r => if s.1 = some r then some (none, s.2) else none)

/-- The runs the writer starts. -/
def inits : Event → Option ℕ
  | .init r _ _ _ _ => some r
  | _ => none

/-- The runs the writer ends. -/
def finishes : Event → Option ℕ
  | .finish r => some r
  | _ => none

end Jaqmc.Wandb.Spec
