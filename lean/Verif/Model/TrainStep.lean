import Mathlib.Data.List.SplitOn
/-! # Training and evaluation steps (C128)

`workflow/stage/vmc.py:227-317`, `workflow/stage/evaluation.py:178-200,232-265`,
`workflow/stage/sampling.py:246-301`.  The sample plan, the estimator pipeline and the optimizer are
arbitrary functions; compilation, sharding and donation are not modelled. -/

namespace Jaqmc.TrainStep

/-- A dictionary by name. -/
abbrev Dict (V : Type) := String → Option V

/-- `{**a, **b}`. -/
def merge {V : Type} (a b : Dict V) : Dict V := fun k => (b k).or (a k)

/-- The dictionary after `pop(name)`. -/
def without {V : Type} (a : Dict V) (name : String) : Dict V := fun k => if k = name then none else a k

/-- `VMCState` (vmc.py:45-48, sampling.py:33-44).  An evaluation has no optimizer state (`O = Unit`). -/
structure State (P D S E O : Type) where
  params : P
  data : D
  sampler : S
  estimator : E
  opt : O

/-- What a stage is made of.  `V`: values of statistics (arrays and trees of arrays); `R`: statistics of
a step before they are finalised. -/
structure Parts (K P D S E O V R : Type) where
  split2 : K → K × K
  split3 : K → K × K × K
  /-- `sample_plan.step(params, data, state, rngs)`: walkers, statistics, state. -/
  sample : P → D → S → K → D × Dict V × S
  /-- `estimators.evaluate(params, data, state, rngs)`. -/
  evaluate : P → D → E → K → R × E
  /-- `estimators.finalize_stats` of the statistics with a leading axis of length 1. -/
  finalize : R → E → Dict V
  /-- `optimizer.update(grads, state, params=, batched_data=, rngs=)`: updates and state. -/
  update : V → O → P → D → K → V × O
  /-- `optax.apply_updates(params, updates)`. -/
  apply : P → V → P

variable {K P D S E O V R : Type}

/-- `VMCWorkStage.compute_step`, vmc.py:238-271.  `none`: the `ValueError` for missing `grads`. -/
def computeStep (c : Parts K P D S E O V R) (s : State P D S E O) (rngs : K) :
    Option (Dict V × State P D S E O) :=
  let (samplerRngs, estRngs, optRngs) := c.split3 rngs
  let (data, samplerStats, samplerState) := c.sample s.params s.data s.sampler samplerRngs
  let (stepStats, estimatorState) := c.evaluate s.params data s.estimator estRngs
  let finalStats := c.finalize stepStats estimatorState
  match finalStats "grads" with
  | none => none
  | some grads =>
    let finalStats := without finalStats "grads"
    let (updates, optState) := c.update grads s.opt s.params data optRngs
    let params := c.apply s.params updates
    some (merge finalStats samplerStats, ⟨params, data, samplerState, estimatorState, optState⟩)

/-- `EvaluationWorkStage.compute_step`, evaluation.py:187-200: the statistics are not finalised and those
of the samplers are dropped. -/
def evalStep (c : Parts K P D S E O V R) (s : State P D S E O) (rngs : K) : R × State P D S E O :=
  let (samplerRngs, estRngs) := c.split2 rngs
  let (data, _, samplerState) := c.sample s.params s.data s.sampler samplerRngs
  let (stepStats, estimatorState) := c.evaluate s.params data s.estimator estRngs
  (stepStats, { s with data := data, sampler := samplerState, estimator := estimatorState })

/-- `_run_burn_in`, sampling.py:246-266. -/
def burnInLoop (c : Parts K P D S E O V R) : Nat → State P D S E O → K → State P D S E O × K
  | 0, s, k => (s, k)
  | n + 1, s, k =>
    let (rngs, sub) := c.split2 k
    let (data, _, samplerState) := c.sample s.params s.data s.sampler sub
    burnInLoop c n { s with data := data, sampler := samplerState } rngs

/-- `burn_in`, sampling.py:284-301. -/
def burnIn (c : Parts K P D S E O V R) (steps : Int) (s : State P D S E O) (k : K) :
    State P D S E O × K :=
  if steps ≤ 0 then (s, k) else burnInLoop c steps.toNat s k

/-- `stop_on_nan: bool | str`. -/
inductive StopOn where
  | all
  | never
  | names (s : List Char)

/-- `_has_nan`, vmc.py:273-281, over the names in `present`; `reNaN v`: some entry of `v.real` is NaN.
`key in stop_on_nan.split(",")`; the empty string disables the check like `False`. -/
def hasNan (stop : StopOn) (reNaN : V → Bool) (present : List String) (stats : Dict V) : Bool :=
  match stop with
  | .never => false
  | .names [] => false
  | .all => present.any fun k => ((stats k).map reNaN).getD false
  | .names s => present.any fun k => (s.splitOn ',').contains k.toList && ((stats k).map reNaN).getD false

/-- How the generator ends: all iterations done, `StageAbort(step, state)`, or the `ValueError`. -/
inductive Ending (St : Type) where
  | done (s : St)
  | abort (step : Nat) (s : St)
  | error

/-- The main loop of `VMCWorkStage.loop`, vmc.py:310-317, for `n` remaining steps: the rows written and
the end.  `nan` is `_has_nan`. -/
def mainLoop (c : Parts K P D S E O V R) (nan : Dict V → Bool) : Nat → Nat → State P D S E O → K →
    List (Nat × Dict V) × Ending (State P D S E O)
  | 0, _, s, _ => ([], .done s)
  | n + 1, step, s, k =>
    let (rngs, sub) := c.split2 k
    match computeStep c s sub with
    | none => ([], .error)
    | some (stats, s') =>
      if nan stats then ([(step, stats)], .abort step s')
      else
        let r := mainLoop c nan n (step + 1) s' rngs
        ((step, stats) :: r.1, r.2)

/-- `VMCWorkStage.loop`, vmc.py:307-317. -/
def trainLoop (c : Parts K P D S E O V R) (nan : Dict V → Bool) (burn : Int) (iterations initialStep : Nat)
    (s : State P D S E O) (k : K) : List (Nat × Dict V) × Ending (State P D S E O) :=
  let r := if initialStep = 0 then burnIn c burn s k else (s, k)
  mainLoop c nan (iterations - initialStep) initialStep r.1 r.2

/-- The main loop of `EvaluationWorkStage.loop`, evaluation.py:257-265, for `n` remaining steps. -/
def evalMain (c : Parts K P D S E O V R) : Nat → Nat → State P D S E O → K →
    List (Nat × R) × State P D S E O
  | 0, _, s, _ => ([], s)
  | n + 1, step, s, k =>
    let (rngs, sub) := c.split2 k
    let (stats, s') := evalStep c s sub
    let r := evalMain c n (step + 1) s' rngs
    ((step, stats) :: r.1, r.2)

/-- `EvaluationWorkStage.loop`, evaluation.py:252-265. -/
def evalLoop (c : Parts K P D S E O V R) (burn : Int) (iterations initialStep : Nat)
    (s : State P D S E O) (k : K) : List (Nat × R) × State P D S E O :=
  let r := if initialStep = 0 then burnIn c burn s k else (s, k)
  evalMain c (iterations - initialStep) initialStep r.1 r.2

end Jaqmc.TrainStep
