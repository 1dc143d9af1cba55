import Verif.Model.Data
import Mathlib.Analysis.SpecialFunctions.Log.Basic
import Mathlib.Algebra.BigOperators.Fin
/-!
Model of `src/jaqmc/sampler/mcmc.py` and `src/jaqmc/sampler/base.py`.
Exact real arithmetic with NaN and infinities for log-probabilities.  The pseudo-random generator is
abstract: keys, splitting and the draws are parameters, so the theorems hold for every generator.
-/
namespace Jaqmc.Sampler
open Classical

/-- A floating-point log-probability. -/
inductive LP where
  | nan
  | ninf
  | fin (r : ℝ)
  | pinf

/-- IEEE subtraction. -/
noncomputable def LP.sub : LP → LP → LP
  | .nan, _ => .nan
  | _, .nan => .nan
  | .fin a, .fin b => .fin (a - b)
  | .fin _, .ninf => .pinf
  | .fin _, .pinf => .ninf
  | .ninf, .ninf => .nan
  | .ninf, _ => .ninf
  | .pinf, .pinf => .nan
  | .pinf, _ => .pinf

/-- IEEE `a > b`. -/
def LP.gt : LP → LP → Prop
  | .nan, _ => False
  | _, .nan => False
  | .fin a, .fin b => a > b
  | .fin _, .ninf => True
  | .fin _, .pinf => False
  | .ninf, _ => False
  | .pinf, .pinf => False
  | .pinf, _ => True

/-- `jnp.log(u)` for a draw `u` in `[0, 1)`. -/
noncomputable def logU (u : ℝ) : LP := if u = 0 then .ninf else .fin (Real.log u)

/-- The sampled part of a batch on one device: for each field (leaf) one value per walker. -/
abbrev Batch (F : Type) (n : Nat) (V : Type) := F → Fin n → V

/-- The pseudo-random generator as the sampler uses it: `jax.random.split(rngs, 3)` and
`jax.random.uniform(key, shape=(n,))`. -/
structure Rng (Key : Type) (n : Nat) where
  split3 : Key → Key × Key × Key
  uniform : Key → Fin n → ℝ

variable {F V Key : Type} {n : Nat}

/-- The loop carry of `MCMCSampler.step`, mcmc.py:180-185. -/
structure Carry (F : Type) (n : Nat) (V Key : Type) where
  x : Batch F n V
  rngs : Key
  logProb : Fin n → LP
  accepts : Nat

/-- `batch_log_prob` is a `vmap` over walkers (base.py:131-133, 183): walker `i` is scored by a function of
its own configuration only (the values of the fields that are not sampled depend on the walker). -/
def batched (lp : Fin n → (F → V) → LP) (x : Batch F n V) (i : Fin n) : LP := lp i (fun f => x f i)

/-- The acceptance condition `ratio > rnd`, mcmc.py:129-133. -/
noncomputable def cond (lp1 lp2 : LP) (u : ℝ) : Prop := (LP.sub lp2 lp1).gt (logU u)

/-- `MCMCSampler._mh_update`, mcmc.py:98-140.  `logProb` is `batch_log_prob(x).real`; `proposal` is
`sampling_proposal` at the current width. -/
noncomputable def mhUpdate (rng : Rng Key n) (logProb : Batch F n V → Fin n → LP)
    (proposal : Key → Batch F n V → Batch F n V) (c : Carry F n V Key) : Carry F n V Key :=
  let (rngNew, rngSample, rngCond) := rng.split3 c.rngs
  let x2 := proposal rngSample c.x
  let lp2 := logProb x2
  let acc : Fin n → Prop := fun i => cond (c.logProb i) (lp2 i) (rng.uniform rngCond i)
  { x := fun f i => if acc i then x2 f i else c.x f i
    rngs := rngNew
    logProb := fun i => if acc i then lp2 i else c.logProb i
    accepts := c.accepts + (Finset.univ.filter acc).card }

/-- `lax.fori_loop(0, steps, ...)`, mcmc.py:180-185. -/
noncomputable def mhLoop (rng : Rng Key n) (logProb : Batch F n V → Fin n → LP)
    (proposal : Key → Batch F n V → Batch F n V) : Nat → Carry F n V Key → Carry F n V Key
  | 0, c => c
  | k + 1, c => mhUpdate rng logProb proposal (mhLoop rng logProb proposal k c)

/-- The carry before the loop, mcmc.py:173-180. -/
noncomputable def start (logProb : Batch F n V → Fin n → LP) (x : Batch F n V) (key : Key) : Carry F n V Key :=
  ⟨x, key, logProb x, 0⟩

/-- The fields of `MCMCSampler` (mcmc.py:72-77) other than the proposal. -/
structure Cfg where
  steps : Nat
  initialWidth : ℝ
  adaptFrequency : Nat
  pmoveLow : ℝ
  pmoveHigh : ℝ

/-- `MCMCState`, mcmc.py:39-51. -/
structure State where
  stddev : ℝ
  pmoves : List ℝ
  counter : Nat

/-- `MCMCSampler.init`, mcmc.py:79-95. -/
noncomputable def init (cfg : Cfg) : State := ⟨cfg.initialWidth, List.replicate cfg.adaptFrequency 0, 0⟩

/-- `jnp.mean` of the history. -/
noncomputable def meanL (xs : List ℝ) : ℝ := xs.sum / (xs.length : ℝ)

/-- The width adaptation, mcmc.py:189-203.  Integer remainder by 0 returns the dividend (as XLA does)
and writing past the end of the array is dropped. -/
noncomputable def adapt (cfg : Cfg) (s : State) (pmove : ℝ) : State :=
  let counter := s.counter + 1
  let t := counter % cfg.adaptFrequency
  let pmoves := s.pmoves.set t pmove
  let stddev :=
    if t = 0 then
      (if meanL pmoves > cfg.pmoveHigh then s.stddev * 1.1
       else if meanL pmoves < cfg.pmoveLow then s.stddev / 1.1 else s.stddev)
    else s.stddev
  ⟨stddev, pmoves, counter⟩

/-- The acceptance ratio of one step, mcmc.py:186-187, from the accepted moves of each of the `d`
devices with `n` walkers each. -/
noncomputable def pmoveOf {d : Nat} (steps n : Nat) (accepts : Fin d → Nat) : ℝ :=
  (∑ i, (accepts i : ℝ) / ((steps : ℝ) * n)) / d

/-- `MCMCSampler.step`, mcmc.py:142-205, on `d` devices.  Returns data, the statistic `pmove` and the
new state. -/
noncomputable def step {d : Nat} (cfg : Cfg) (rng : Rng Key n) (logProb : Fin d → Batch F n V → Fin n → LP)
    (proposal : ℝ → Key → Batch F n V → Batch F n V) (x : Fin d → Batch F n V) (s : State) (keys : Fin d → Key) :
    (Fin d → Batch F n V) × ℝ × State :=
  if cfg.steps = 0 then (x, 0, s)
  else
    let out := fun i => mhLoop rng (logProb i) (proposal s.stddev) cfg.steps (start (logProb i) (x i) (keys i))
    let pmove := pmoveOf cfg.steps n (fun i => (out i).accepts)
    (fun i => (out i).x, pmove, adapt cfg s pmove)

/-- Several sampling steps, each with its own target (the wavefunction parameters change in between)
and keys; returns the reported acceptance ratios too. -/
noncomputable def run {d : Nat} (cfg : Cfg) (rng : Rng Key n)
    (proposal : ℝ → Key → Batch F n V → Batch F n V) (x : Fin d → Batch F n V) (s : State) :
    List ((Fin d → Batch F n V → Fin n → LP) × (Fin d → Key)) → (Fin d → Batch F n V) × List ℝ × State
  | [] => (x, [], s)
  | (lp, keys) :: rest =>
    let r := step cfg rng lp proposal x s keys
    let q := run cfg rng proposal r.1 r.2.2 rest
    (q.1, r.2.1 :: q.2.1, q.2.2)

/-- `gaussian_proposal`, mcmc.py:54-55: the same key is used for each leaf, so leaves of the same shape
get the same noise (`normal key shape`). -/
noncomputable def gaussianProposal {Shape : Type} (shape : F → Shape) (normal : Key → Shape → Fin n → ℝ)
    (stddev : ℝ) (key : Key) (x : Batch F n ℝ) : Batch F n ℝ :=
  fun f i => x f i + normal key (shape f) i * stddev

/-! ### Sample plans, base.py -/
section Plan
open Jaqmc.Data
variable {L S T : Type}

/-- A sampler as the plan sees it (`SamplerLike.step`, base.py:38-60). -/
structure PlanSampler (V Key L S T : Type) where
  keys : List String
  step : (List (String × V) → Except Err L) → List (String × V) → S → Key → List (String × V) × List (String × T) × S

/-- `all_stats.update(stats)`. -/
def updateStats (a b : List (String × T)) : List (String × T) :=
  a.filter (fun e => (b.lookup e.1).isNone) ++ b

/-- The loop of `SamplePlan.step`, base.py:178-190.  `original` is `batched_data.data`; `data` the running
value; states are aligned with the samplers (they are stored under the joined field names, which are
distinct because field names contain no comma).  `logProb` is `2 * batch_log_amplitude(params, ·)`. -/
def planLoop (split : Key → Key × Key) (logProb : Record V → L) (original : Record V) :
    List (PlanSampler V Key L S T × S) → Record V → List (String × T) → Key →
    Except Err (Record V × List (String × T) × List S)
  | [], data, stats, _ => .ok (data, stats, [])
  | (sampler, st) :: rest, data, stats, key =>
    match subset original sampler.keys with
    | .error e => .error e
    | .ok part =>
      let (newPart, s, st') := sampler.step (fun x => (merge data x).map logProb) part st (split key).2
      match merge data newPart with
      | .error e => .error e
      | .ok data' =>
        match planLoop split logProb original rest data' (updateStats stats s) (split key).1 with
        | .error e => .error e
        | .ok (d, ss, sts) => .ok (d, ss, st' :: sts)

/-- `SamplePlan.step`, base.py:152-191. -/
def planStep (split : Key → Key × Key) (logProb : Record V → L) (samplers : List (PlanSampler V Key L S T × S))
    (data : Record V) (key : Key) : Except Err (Record V × List (String × T) × List S) :=
  planLoop split logProb data samplers data [] key

end Plan

end Jaqmc.Sampler
