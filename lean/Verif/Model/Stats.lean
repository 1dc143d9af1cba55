import Mathlib.Algebra.Field.Basic
import Mathlib.Algebra.BigOperators.Group.List.Basic
/-!
Model of `src/jaqmc/estimator/base.py` (reduction over walkers and devices, the estimator pipeline),
`src/jaqmc/estimator/total_energy.py` and `src/jaqmc/estimator/histogram.py`.
Numbers are elements of an exact field; a NaN is `none`.
-/
namespace Jaqmc.Stats

/-! ### Python dictionaries -/

/-- A Python `dict` with string keys: insertion-ordered, keys distinct. -/
abbrev Dict (V : Type) := List (String × V)

variable {V : Type}

/-- `d[k] = v`: replaces in place or appends. -/
def Dict.set : Dict V → String → V → Dict V
  | [], k, v => [(k, v)]
  | (k', v') :: d, k, v => if k' = k then (k', v) :: d else (k', v') :: Dict.set d k v

/-- `d.update(e)`. -/
def Dict.update (d e : Dict V) : Dict V := e.foldl (fun d p => Dict.set d p.1 p.2) d

/-! ### Means -/

section
variable {K : Type} [Field K]

/-- Arithmetic mean of a list (0/0 for the empty list is excluded by the callers below). -/
def mean (xs : List K) : K := xs.sum / (xs.length : K)

/-- `jnp.nanmean(x, axis=0)`: NaN values are left out; NaN when nothing remains. -/
def nanmean (xs : List (Option K)) : Option K :=
  if xs.filterMap id = [] then none else some (mean (xs.filterMap id))

/-- `jnp.mean(x, axis=0)`: NaN if any value is NaN (or there is none). -/
def nmean (xs : List (Option K)) : Option K :=
  if xs.isEmpty || xs.any Option.isNone then none else some (mean (xs.filterMap id))

/-- `parallel_jax.pmean`, utils/parallel_jax.py:101-116: the mean over devices, NaN if any device's
value is NaN. -/
def pmean (xs : List (Option K)) : Option K := nmean xs

/-- NaN-propagating subtraction. -/
def nsub : Option K → Option K → Option K
  | some a, some b => some (a - b)
  | _, _ => none

/-- The mean `mean_reduce` reports for one key, estimator/base.py:43-45.  `shards` holds each
device's walkers. -/
def meanOf (shards : List (List (Option K))) : Option K := pmean (shards.map nanmean)

/-- The variance `mean_reduce` reports for one key, estimator/base.py:46-51. -/
def varOf (shards : List (List (Option K))) : Option K :=
  nsub (pmean (shards.map (fun xs => nanmean (xs.map (Option.map (fun x => x ^ 2))))))
    ((meanOf shards).map (fun m => m ^ 2))

/-- `mean_reduce`, estimator/base.py:27-53, on a flat dictionary of scalar per-walker values. -/
def meanReduce (includeVariance : Bool) (walkerStats : Dict (List (List (Option K)))) :
    Dict (Option K) :=
  let stats := walkerStats.map (fun p => (p.1, meanOf p.2))
  if includeVariance then
    Dict.update stats (walkerStats.map (fun p => (p.1 ++ "_var", varOf p.2)))
  else stats

end

/-! ### The pipeline -/

/-- An estimator as the pipeline sees it.  `E` is everything that varies from step to step and is not
per-estimator state (parameters, walkers, random key). -/
structure Est (E V S : Type) where
  evaluate : E → Dict V → S → Dict V × S
  reduce : Dict V → Dict V
  finalizeStats : Dict (List V) → S → Dict V
  finalizeState : S → Nat → Dict V

/-- A named estimator with its current state. -/
structure Slot (E V S : Type) where
  name : String
  est : Est E V S
  state : S

variable {E S : Type}

/-- What one pass of `evaluate` does for each estimator: what it was shown of earlier values, what it
produced, its reduced statistics. -/
structure Visit (V : Type) where
  seen : Dict V
  produced : Dict V
  reduced : Dict V

/-- The loop of `EstimatorPipeline.evaluate`, estimator/base.py:350-362, with the values of each
estimator's turn recorded. -/
def evalLoop (env : E) : Dict V → List (Slot E V S) → List (Visit V) × List (Slot E V S)
  | _, [] => ([], [])
  | seen, s :: ss =>
    let r := s.est.evaluate env seen s.state
    let visit : Visit V := ⟨seen, r.1, s.est.reduce r.1⟩
    let rest := evalLoop env (Dict.update seen r.1) ss
    (visit :: rest.1, ⟨s.name, s.est, r.2⟩ :: rest.2)

/-- `step_stats` of one evaluation: the reduced statistics merged in order. -/
def stepStats (visits : List (Visit V)) : Dict V :=
  visits.foldl (fun d v => Dict.update d v.reduced) []

/-- `EstimatorPipeline`: the slots and `_reduce_keys` (`none` before the first evaluation). -/
structure Pipeline (E V S : Type) where
  slots : List (Slot E V S)
  reduceKeys : List (String × List String)

/-- `EstimatorPipeline.evaluate`, estimator/base.py:331-362. -/
def Pipeline.evaluate (p : Pipeline E V S) (env : E) : Pipeline E V S × List (Visit V) × Dict V :=
  let r := evalLoop env [] p.slots
  (⟨r.2, (p.slots.map (·.name)).zip (r.1.map (fun v => v.reduced.map Prod.fst))⟩, r.1, stepStats r.1)

/-- Several evaluations in a row; the visits of every step. -/
def Pipeline.run (p : Pipeline E V S) : List E → Pipeline E V S × List (List (Visit V))
  | [] => (p, [])
  | e :: es =>
    let r := p.evaluate e
    let rest := Pipeline.run r.1 es
    (rest.1, r.2.1 :: rest.2)

/-- The stacked statistics of several steps (HDF5 file in evaluation; one step in training): for each
key of the first step, the values of all steps. -/
def stack (steps : List (Dict V)) : Dict (List V) :=
  match steps with
  | [] => []
  | d :: _ => d.map (fun p => (p.1, steps.filterMap (fun s => s.lookup p.1)))

inductive PipeErr where
  | runtimeError
  | keyError
  deriving DecidableEq

/-- The statistics handed to one estimator's `finalize_stats`, estimator/base.py:393-398. -/
def ownStats (keys : List String) (batched : Dict (List V)) : Dict (List V) :=
  keys.filterMap (fun k => (batched.lookup k).map (fun v => (k, v)))

/-- `EstimatorPipeline.finalize_stats`, estimator/base.py:364-400, returning what each estimator was
given and the merged result. -/
def Pipeline.finalizeStats (p : Pipeline E V S) (batched : Dict (List V)) :
    Except PipeErr (List (String × Dict (List V)) × Dict V) :=
  if p.reduceKeys = [] then .error .runtimeError
  else if p.slots.all (fun s => (p.reduceKeys.lookup s.name).isSome) then
    let given := p.slots.map (fun s => (s, ownStats ((p.reduceKeys.lookup s.name).getD []) batched))
    .ok (given.map (fun g => (g.1.name, g.2)),
      given.foldl (fun d g => Dict.update d (g.1.est.finalizeStats g.2 g.1.state)) [])
  else .error .keyError

/-! ### Total energy -/

inductive EnergyErr where
  | keyError
  | valueError
  deriving DecidableEq

/-- A per-walker statistic: a scalar or an array. -/
inductive Stat (K : Type) where
  | scalar (x : K)
  | array

/-- The loop of `TotalEnergy.evaluate_single_walker`, total_energy.py:50-59. -/
def sumEnergies {K : Type} [AddCommMonoid K] (prev : Dict (Stat K)) : K → List String → Except EnergyErr K
  | total, [] => .ok total
  | total, k :: ks =>
    match prev.lookup k with
    | none => .error .keyError
    | some .array => .error .valueError
    | some (.scalar x) => sumEnergies prev (total + x) ks

/-- The prefix of energy contributions. -/
def isEnergyKey (k : String) : Bool := "energy:".toList.isPrefixOf k.toList

/-- `TotalEnergy.evaluate_single_walker`, total_energy.py:36-60. -/
def totalEnergy {K : Type} [AddCommMonoid K] (components : Option (List String)) (prev : Dict (Stat K)) :
    Except EnergyErr K :=
  match components with
  | some cs => sumEnergies prev 0 cs
  | none => sumEnergies prev 0 ((prev.map Prod.fst).filter isEnergyKey)

/-! ### Histograms -/

section
variable {K : Type} [LinearOrder K]

/-- `searchsorted(edges, x, side='right')`: how many edges are ≤ x. -/
def searchRight (edges : List K) (x : K) : Nat := (edges.filter (fun e => decide (e ≤ x))).length

/-- The bin number along one dimension as `jnp.histogramdd` computes it: 0 below the range,
`edges.length` above it, otherwise 1-based; a value on the last edge belongs to the last bin. -/
def binIndex (edges : List K) (x : K) : Nat :=
  if edges.getLast? = some x then searchRight edges x - 1 else searchRight edges x

/-- The multi-dimensional bin number of a sample. -/
def binIndices : List (List K) → List K → List Nat
  | e :: es, x :: xs => binIndex e x :: binIndices es xs
  | _, _ => []

/-- `jnp.histogramdd(values, bins, ranges)[0]` at bin `idx` (0-based in each dimension): the number of
samples whose bin number is `idx + 1`. -/
def histogramdd (edges : List (List K)) (samples : List (List K)) (idx : List Nat) : Nat :=
  (samples.filter (fun s => binIndices edges s = idx.map (· + 1))).length

end

section
variable {K : Type} [Ring K]

/-- State of one histogram bin on one device, histogram.py:82-88. -/
structure Kahan (K : Type) where
  histogram : K
  compensation : K

def Kahan.init : Kahan K := ⟨0, 0⟩

/-- One compensated addition, histogram.py:104-109.  `rnd` is the rounding of the sum; the subtractions are exact,
as they are in floating point whenever the running total is at least as large as the addend. -/
def Kahan.add (rnd : K → K) (s : Kahan K) (counts : K) : Kahan K :=
  let adjusted := counts - s.compensation
  let newSum := rnd (s.histogram + adjusted)
  ⟨newSum, (newSum - s.histogram) - adjusted⟩

end

/-- A whole evaluation: on every device, a list of batches (one per step); the state of bin `idx` on a
device after all steps, histogram.py:90-109. -/
def histState {K R : Type} [LinearOrder K] [Ring R] (rnd : R → R) (edges : List (List K))
    (steps : List (List (List K))) (idx : List Nat) : Kahan R :=
  steps.foldl (fun s batch => s.add rnd ((histogramdd edges batch idx : Nat) : R)) Kahan.init

/-- `finalize_state`, histogram.py:120-131: the sum over devices, in exact arithmetic. -/
def histFinal {K R : Type} [LinearOrder K] [Ring R] (edges : List (List K))
    (devices : List (List (List (List K)))) (idx : List Nat) : R :=
  (devices.map (fun steps => (histState (R := R) id edges steps idx).histogram)).sum

end Jaqmc.Stats
