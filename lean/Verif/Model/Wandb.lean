import Mathlib.Data.List.Basic
import Mathlib.Data.Real.Basic
/-! # The Weights & Biases writer (C148)

`/repo/src/jaqmc/writer/wandb.py`.  The `wandb` package is modelled by its documented behaviour: `wandb.init`
starts a run and makes it the active one (`wandb.run`), `run.finish()` ends it and leaves none active; runs are
numbered.  What `init` is told (wandb.py:86-101) is recorded.  That the package is missing (wandb.py:76-84) and
failures inside the package are not modelled. -/

namespace Jaqmc.Wandb

/-- A value of a statistics dictionary, as `jnp.isscalar(value) and jnp.isrealobj(value)` (wandb.py:119) sees
it. -/
inductive Value where
  | real (x : ℝ)
  | complex (re im : ℝ)
  | array

/-- What reaches W&B, and runs started or ended by someone else. -/
inductive Event where
  | init (run : ℕ) (dir jobType : String) (project name : Option String)
  | log (run : ℕ) (step : ℕ) (stats : List (String × ℝ))
  | finish (run : ℕ)
  | userInit (run : ℕ)
  | userFinish (run : ℕ)

/-- The package: the active run, the number of the next run, and everything it was asked to do. -/
structure World where
  active : Option ℕ
  next : ℕ
  events : List Event

/-- `WandbWriter` (wandb.py:40-44). -/
structure Writer where
  project : Option String
  runName : Option String
  run : Option ℕ

/-- The loop of `write` (wandb.py:117-120). -/
def scalars (stats : List (String × Value)) : List (String × ℝ) :=
  stats.filterMap fun e => match e.2 with
    | .real x => some (e.1, x)
    | _ => none

/-- `write` (wandb.py:103-123); `none`: it raises. -/
def write (w : Writer) (step : ℕ) (stats : List (String × Value)) (W : World) : Option World :=
  match w.run with
  | none => none
  | some r =>
    if (scalars stats).isEmpty then some W
    else some { W with events := W.events ++ [.log r step (scalars stats)] }

/-- What the stage does while the writer is open (stage/base.py:166-190): it writes, or something raises. -/
inductive Op where
  | write (step : ℕ) (stats : List (String × Value))
  | raise

/-- The body of the `with` statement; the second component says whether an exception leaves it. -/
def body (w : Writer) : List Op → World → World × Bool
  | [], W => (W, false)
  | .raise :: _, W => (W, true)
  | .write step stats :: ops, W =>
    match write w step stats W with
    | none => (W, true)
    | some W' => body w ops W'

/-- `with writer.open(dir, stage): ops` (wandb.py:46-74). -/
def session (w : Writer) (dir stage : String) (ops : List Op) (W : World) : World × Writer × Bool :=
  match W.active with
  | some r =>
    let b := body { w with run := some r } ops W
    (b.1, { w with run := none }, b.2)
  | none =>
    let W1 : World := ⟨some W.next, W.next + 1, W.events ++ [.init W.next dir stage w.project w.runName]⟩
    let b := body { w with run := some W.next } ops W1
    (⟨none, b.1.next, b.1.events ++ [.finish W.next]⟩, { w with run := none }, b.2)

/-- What happens in a process that uses a writer: stages, writes outside of any, and runs that the user starts
or ends between them. -/
inductive Act where
  | stage (dir name : String) (ops : List Op)
  | stray (step : ℕ) (stats : List (String × Value))
  | userInit
  | userFinish

/-- One of them; the last component says whether it raised. -/
def act (a : Act) (s : World × Writer) : (World × Writer) × Bool :=
  match a with
  | .stage dir name ops =>
    let r := session s.2 dir name ops s.1
    ((r.1, r.2.1), r.2.2)
  | .stray step stats =>
    match write s.2 step stats s.1 with
    | none => (s, true)
    | some W => ((W, s.2), false)
  | .userInit =>
    match s.1.active with
    | some _ => (s, false)
    | none => ((⟨some s.1.next, s.1.next + 1, s.1.events ++ [.userInit s.1.next]⟩, s.2), false)
  | .userFinish =>
    match s.1.active with
    | some r => ((⟨none, s.1.next, s.1.events ++ [.userFinish r]⟩, s.2), false)
    | none => (s, false)

/-- A history; the user goes on after exceptions. -/
def history (acts : List Act) (s : World × Writer) : World × Writer := acts.foldl (fun s a => (act a s).1) s

/-- The beginning of a process. -/
def start (project name : Option String) : World × Writer := (⟨none, 0, []⟩, ⟨project, name, none⟩)

end Jaqmc.Wandb
