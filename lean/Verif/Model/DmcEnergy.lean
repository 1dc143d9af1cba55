import Mathlib.Analysis.SpecialFunctions.Log.Basic
import Mathlib.Analysis.Real.Sqrt
import Mathlib.Data.Sign.Basic
import Mathlib.Data.Nat.Log
/-!
# Energies, time steps, population control and padding of the legacy DMC

`/repo/src/jaqmc_legacy/dmc/{energy_estimator,effective_time_step_calculator,dmc}.py`.
Real numbers stand for floats.  The walkers of all hosts are one list
(`agg_sum`, utils.py:16-50, adds over all hosts and divides by the number of
local devices by which it has counted too often).
-/
namespace Jaqmc.DmcEnergy
open scoped Classical

/-! ## The mixed estimator (energy_estimator.py) -/

/-- `deque.append` on a `deque` with `maxlen = n`: the oldest entry goes when full
(energy_estimator.py:22-24, 41, 59). -/
def push {α : Type*} (n : ℕ) (q : List α) (x : α) : List α := (q ++ [x]).drop (q.length + 1 - n)

/-- The four deques of `MixedEstimatorCalculator` (energy_estimator.py:27-32). -/
structure Calc where
  energy : List ℝ
  piLog : List ℝ
  weight : List ℝ
  offsets : List ℝ

/-- `__init__` (energy_estimator.py:27-32). -/
def Calc.init : Calc := ⟨[], [], [], []⟩

/-- The arguments of one `run` (energy_estimator.py:62). -/
structure Call where
  offset : ℝ
  energy : ℝ
  weight : ℝ
  timeStep : ℝ

/-- `np.max` of a non-empty array (energy_estimator.py:43). -/
noncomputable def listMax : List ℝ → ℝ
  | [] => 0
  | a :: l => l.foldl max a

/-- `run` (energy_estimator.py:62-81): `K = energy_window_size`,
`T = mixed_estimator_num_steps`. -/
noncomputable def Calc.run (K T : ℕ) (c : Calc) (a : Call) : Calc × ℝ :=
  -- get_Pi_log (energy_estimator.py:58-60)
  let offsets := push T c.offsets a.offset
  let newPi := -a.timeStep * offsets.sum
  -- update_then_get_normalized_Pi (energy_estimator.py:34-45)
  let piLog := push K c.piLog newPi
  let m := listMax piLog
  let pis := piLog.map fun l => Real.exp (l - m)
  let energy := push K c.energy a.energy
  let weight := push K c.weight a.weight
  -- calculate_numerator, calculate_denominator (energy_estimator.py:47-56)
  let num := (List.zipWith (· * ·) (List.zipWith (· * ·) energy pis) weight).sum
  let den := (List.zipWith (· * ·) weight pis).sum
  (⟨energy, piLog, weight, offsets⟩, num / den)

/-- The calculator before call number `n` of a sequence of calls. -/
noncomputable def Calc.before (K T : ℕ) (a : ℕ → Call) : ℕ → Calc
  | 0 => Calc.init
  | n + 1 => ((Calc.before K T a n).run K T (a n)).1

/-- The value returned by call number `n`. -/
noncomputable def Calc.result (K T : ℕ) (a : ℕ → Call) (n : ℕ) : ℝ :=
  ((Calc.before K T a n).run K T (a n)).2

/-! ## The effective time step (effective_time_step_calculator.py) -/

/-- What one walker contributes to one `update`: its weight, the length of its
diffusion step, the acceptance rate. -/
structure Walk where
  weight : ℝ
  dist : ℝ
  rate : ℝ

/-- The fields of `EffectiveTimeStepCalculator` (lines 14-18). -/
structure TStep where
  total : ℝ
  den : ℝ
  num : ℝ

/-- `__init__` (lines 14-18). -/
def TStep.init : TStep := ⟨0, 0, 0⟩

/-- `agg_mean(x, weights)` (utils.py:36-42). -/
noncomputable def aggMean (l : List Walk) (x : Walk → ℝ) : ℝ :=
  (l.map fun e => x e * e.weight).sum / (l.map Walk.weight).sum

/-- `update` (lines 20-38). -/
noncomputable def TStep.update (s : TStep) (l : List Walk) : TStep :=
  let new := (l.map Walk.weight).sum
  let total := s.total + new
  ⟨total,
   s.den * (s.total / total) + aggMean l (fun e => e.dist ^ 2) * (new / total),
   s.num * (s.total / total) + aggMean l (fun e => e.rate * e.dist ^ 2) * (new / total)⟩

/-- What one walker contributes to one `update_ebye`: its weight and its effective time step. -/
structure EWalk where
  weight : ℝ
  step : ℝ

/-- `update_ebye` (lines 40-49). -/
noncomputable def TStep.updateEbye (timeStep : ℝ) (s : TStep) (l : List EWalk) : TStep :=
  let total := s.total + (l.map EWalk.weight).sum
  ⟨total, total * timeStep, s.num + (l.map fun e => e.step * e.weight).sum⟩

/-- `run` (lines 51-54).  `jnp.exp(jnp.log(0.) - …)` is `0`. -/
noncomputable def TStep.run (timeStep : ℝ) (s : TStep) : ℝ :=
  if s.total = 0 ∨ s.den = 0 then timeStep
  else timeStep * if s.num = 0 then 0 else Real.exp (Real.log s.num - Real.log s.den)

/-! ## Branching value, weights, population control (dmc.py) -/

/-- `jnp.clip(x, lo, hi)`. -/
noncomputable def clip (lo hi x : ℝ) : ℝ := min (max x lo) hi

/-- The optional clipping with `energy_clip_pair` (dmc.py:552-555, 579-580). -/
noncomputable def clipPair : Option (ℝ × ℝ) → ℝ → ℝ
  | none, x => x
  | some (lo, hi), x => clip lo hi x

/-- `calc_branch_val` (dmc.py:574-595), first component; `v`, `vc` are the norms of the velocity
and of the clipped velocity. -/
noncomputable def branchVal (alpha : ℝ) (pair : Option (ℝ × ℝ)) (electrons : ℕ) (timeStep : ℝ)
    (v vc : ℝ) (offset mixed localE : ℝ) : ℝ :=
  let e := clipPair pair localE
  if alpha < 0 then offset - mixed + (mixed - e) * (vc / v)
  else
    let cutoff := alpha * Real.sqrt (electrons / timeStep)
    offset - mixed + (SignType.sign (mixed - e) : ℝ) * min cutoff |mixed - e|

/-- `weight_delta_log` of the walker move (dmc.py:665-667). -/
noncomputable def weightDeltaLog (rate old new : ℝ) : ℝ :=
  rate / 2 * (old + new) + (1 - rate) * old

/-- The weight update (dmc.py:433, 456). -/
noncomputable def newWeight (w tauEff deltaLog : ℝ) : ℝ := w * Real.exp (tauEff * deltaLog)

/-- `average_energy` (dmc.py:547-557) of a list of (energy, weight). -/
noncomputable def averageEnergy (pair : Option (ℝ × ℝ)) (l : List (ℝ × ℝ)) : ℝ :=
  (l.map fun e => clipPair pair e.1 * (e.2 / (l.map Prod.snd).sum)).sum

/-- `update_energy_offset` (dmc.py:559-572). -/
noncomputable def updateOffset (estimator amplitude total target : ℝ) : ℝ :=
  estimator - amplitude * Real.log (total / target)

/-- `is_energy_outlier` (dmc.py:374-384). -/
def isOutlier (threshold energy anchor : ℝ) : Prop :=
  ¬ threshold ≤ 0 ∧
    (energy < min (anchor * (1 - threshold)) (anchor * (1 + threshold)) ∨
      energy > max (anchor * (1 - threshold)) (anchor * (1 + threshold)))

/-- The energy offset after an iteration (dmc.py:512-522). -/
noncomputable def nextOffset (index interval : ℕ) (amplitude timeStep tauEff mixed total target
    old : ℝ) : ℝ :=
  if index % interval = 0 then updateOffset mixed (amplitude * timeStep / tauEff) total target
  else old

/-! ## Padding (dmc.py) -/

/-- `get_to_pad_num` (dmc.py:774-779) for at least `9 * d` walkers, so that `num_digit ≥ 1` and
all numbers are integers.  (Below that the code computes with the float `10 ** (-1)`, which is not
modelled.)  `int(np.log10(n))` is the exact integer logarithm. -/
def padTarget (walkers devices : ℕ) : ℕ :=
  let least := walkers / devices + 1
  let p := 10 ^ (Nat.log 10 least - 1)
  (least / p + 1) * p

/-- The number of padded walkers (dmc.py:779). -/
def padNum (walkers devices : ℕ) : ℕ := padTarget walkers devices * devices - walkers

/-- `arr.reshape((rows, -1))` of a list: `rows` pieces of equal length. -/
def chunks {α : Type*} (len : ℕ) : ℕ → List α → List (List α)
  | 0, _ => []
  | r + 1, l => l.take len :: chunks len r (l.drop len)

/-- `flatten(r).repeat(flatten_mask, axis=0)` (dmc.py:878-880). -/
def unmask {β : Type*} (r : List β) (mask : List ℕ) : List β :=
  (List.zipWith (fun b m => List.replicate m b) r mask).flatten

/-- `run` of `make_step` (dmc.py:828-881) with padding: pad with zeros, give every (padded) walker
its own key, reshape to devices, apply the walker function, flatten, remove the padded walkers.
`walk` is the walker function of dmc.py:758-771 with its mask argument. -/
def stepRun {α β κ : Type*} (zero : α) (walk : ℕ → α → κ → β) (keys : ℕ → List κ)
    (devices : ℕ) (walkers : List α) : List β :=
  let pad := padNum walkers.length devices
  let per := padTarget walkers.length devices
  let mask := List.replicate walkers.length 1 ++ List.replicate pad 0
  let arr := walkers ++ List.replicate pad zero
  let ks := keys (per * devices)
  let run3 := List.zipWith (fun m (p : List α × List κ) =>
    List.zipWith (fun m (q : α × κ) => walk m q.1 q.2) m (List.zip p.1 p.2))
  let out := run3 (chunks per devices mask) (List.zip (chunks per devices arr) (chunks per devices ks))
  unmask out.flatten ((chunks per devices mask).flatten)

end Jaqmc.DmcEnergy
