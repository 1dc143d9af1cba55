import Verif.Model.DmcEnergy
import Verif.Model.DmcBranch
/-! # The iterations of a legacy DMC run (C130)

`/repo/src/jaqmc_legacy/dmc/dmc.py:28-349,351-545`.  Reals stand for floats; the walkers of all hosts are one
list; the move of a walker (dmc.py:597-756, C88 and C89) and random keys are arbitrary.  Checkpoints, metric
files and the recovery after an exception are `Model/DmcData` (C80-C82): here an exception ends the run. -/

namespace Jaqmc.DmcRun
open Jaqmc.DmcEnergy
open scoped Classical

/-- What `dmc_step` returns for one walker, dmc.py:420-424,443-448: the walker after the move (position, age,
local energy), its energy for the average, the change of the logarithm of its weight per time, the length of
its diffusion step, its acceptance rate and (electron-by-electron moves) its own effective time step. -/
structure Moved (X : Type) where
  walker : X
  energy : ℝ
  deltaLog : ℝ
  dist : ℝ
  rate : ℝ
  step : ℝ

/-- `State`, state.py:20-33: walkers with their weights and the numbers of the population control. -/
structure State (X : Type) where
  walkers : List (ℝ × X)
  offset : ℝ
  target : ℝ
  mixed : ℝ
  estimator : Calc
  tstep : TStep

/-- The arguments of `run` and `make_dmc_single_iteration` (dmc.py:28-55,351-360) that an iteration uses;
`K` and `T` are `energy_window_size` and `mixed_estimator_num_steps`. -/
structure Setup (X Key : Type) where
  timeStep : ℝ
  ebye : Bool
  move : List X → Key → ℝ → ℝ → List (Moved X)
  branch : Key → List (ℝ × (X × ℝ)) → Option (List (ℝ × (X × ℝ)))
  pair : Option (ℝ × ℝ)
  interval : ℕ
  amplitude : ℝ
  threshold : ℝ
  K : ℕ
  T : ℕ
  split : Key → Key × Key

/-- The metrics of one iteration (dmc.py:322-330) and what the estimator was called with. -/
structure Row where
  index : ℕ
  offsetBefore : ℝ
  mixedBefore : ℝ
  /-- `averaged_energy_before_branch`, dmc.py:460. -/
  before : ℝ
  average : ℝ
  total : ℝ
  eff : ℝ
  mixed : ℝ
  offset : ℝ

/-- The end of one iteration: a new state, a rejected outlier, or an exception. -/
inductive Outcome (X Key : Type) where
  | succeeded (index : ℕ) (key : Key) (state : State X) (row : Row)
  | rejected (index : ℕ) (key : Key) (state : State X)
  | raised

/-- The walkers as `EffectiveTimeStepCalculator.update` sees them, dmc.py:450-453: old weights. -/
def walks {X : Type} (weights : List ℝ) (moved : List (Moved X)) : List Walk :=
  List.zipWith (fun w m => ⟨w, m.dist, m.rate⟩) weights moved

/-- The walkers as `update_ebye` sees them, dmc.py:437-439. -/
def ewalks {X : Type} (weights : List ℝ) (moved : List (Moved X)) : List EWalk :=
  List.zipWith (fun w m => ⟨w, m.step⟩) weights moved

/-- `dmc_single_iteration`, dmc.py:386-545.  The two calculators are objects that the returned state shares
with the given one, so what is done to them before a rejection stays done. -/
noncomputable def iteration {X Key : Type} (s : Setup X Key) (index : ℕ) (key : Key) (state : State X)
    (shouldUpdate : Bool := true) : Outcome X Key :=
  let key1 := (s.split key).1
  let moved := s.move (state.walkers.map Prod.snd) (s.split key).2 state.offset state.mixed
  let old := state.walkers.map Prod.fst
  -- electron by electron (dmc.py:419-440)
  let weightE := List.zipWith (fun w m => newWeight w m.step m.deltaLog) old moved
  let tstep :=
    if s.ebye then
      if shouldUpdate then state.tstep.updateEbye s.timeStep (ewalks weightE moved) else state.tstep
    else if shouldUpdate then state.tstep.update (walks old moved) else state.tstep
  let eff := tstep.run s.timeStep
  let weight := if s.ebye then weightE else List.zipWith (fun w m => newWeight w eff m.deltaLog) old moved
  let before := averageEnergy s.pair ((moved.map Moved.energy).zip weight)
  let key2 := (s.split key1).1
  if isOutlier s.threshold before state.mixed then .rejected index key2 { state with tstep := tstep }
  else
    match s.branch (s.split key1).2 (weight.zip (moved.map fun m => (m.walker, m.energy))) with
    | none => .raised
    | some p =>
      let total := (p.map Prod.fst).sum
      let average := averageEnergy s.pair (p.map fun e => (e.2.2, e.1))
      let r := state.estimator.run s.K s.T ⟨state.offset, average, total, eff⟩
      let offset := nextOffset index s.interval s.amplitude s.timeStep eff r.2 total state.target state.offset
      .succeeded (index + 1) key2
        ⟨p.map fun e => (e.1, e.2.1), offset, state.target, r.2, r.1, tstep⟩
        ⟨index, state.offset, state.mixed, before, average, total, eff, r.2, offset⟩

/-- What happened at one pass of the loop: the walkers tried (their weights before the move) and the metrics,
if the iteration counted. -/
structure Attempt (X : Type) where
  weights : List ℝ
  moved : List (Moved X)
  row : Option Row

/-- Where the loop of dmc.py:280-345 stands after some passes. -/
structure Run (X Key : Type) where
  t : ℕ
  key : Key
  state : State X
  log : List (Attempt X)
  raised : Bool

/-- The loop of dmc.py:280-345, at most `fuel` passes.  `effective_time_step_update_period` and
`anchor_energy` are arguments of `run` (dmc.py:42,46): the loop computes from the first whether to update
(dmc.py:287-289) but does not pass it on (dmc.py:294-297), and the second is only given a default
(dmc.py:223-224). -/
noncomputable def loop {X Key : Type} (s : Setup X Key) (numSteps blockSize : ℕ) (updatePeriod : ℤ)
    (anchorEnergy : Option ℝ) : ℕ → Run X Key → Run X Key
  | 0, r => r
  | fuel + 1, r =>
    if r.t < numSteps + blockSize + 1 ∧ r.raised = false then
      let _anchor := anchorEnergy.getD r.state.offset
      let _shouldUpdate := decide (updatePeriod ≤ 0) || decide ((r.t : ℤ) < updatePeriod)
      let moved := s.move (r.state.walkers.map Prod.snd) (s.split r.key).2 r.state.offset r.state.mixed
      let old := r.state.walkers.map Prod.fst
      match iteration s r.t r.key r.state with
      | .succeeded t key state row =>
        loop s numSteps blockSize updatePeriod anchorEnergy fuel
          ⟨t, key, state, r.log ++ [⟨old, moved, some row⟩], false⟩
      | .rejected t key state =>
        loop s numSteps blockSize updatePeriod anchorEnergy fuel
          ⟨t, key, state, r.log ++ [⟨old, moved, none⟩], false⟩
      | .raised => { r with raised := true }
    else r

/-- The variable-size branching (branch.py:16-38) of a list of walkers; `u` are the uniform draws made with a
key. -/
noncomputable def varBranch {Key Y : Type} (minT maxT : ℝ) (u : Key → ℕ → ℝ) (key : Key)
    (l : List (ℝ × Y)) : Option (List (ℝ × Y)) :=
  DmcBranch.branch (fun i : Fin l.length => (l.get i).1) (fun i => (l.get i).2) minT maxT (u key)

end Jaqmc.DmcRun
