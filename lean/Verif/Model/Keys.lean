import Mathlib.Data.List.Basic
/-! # Random keys (C126)

How one run of jaqmc derives and hands out its random keys: `workflow/vmc.py`,
`workflow/evaluation.py`, `workflow/base.py`, `workflow/stage/{base,sampling,vmc,evaluation}.py`,
`sampler/{base,mcmc}.py`, `estimator/base.py` and the places which finally draw numbers.

A key is the path of derivations which leads to it from `jax.random.PRNGKey(seed)`.  Two
simplifications, both pessimistic: `split(k, n)[i]` is taken not to depend on `n`, and
`fold_in(k, i)` to be the same key as `split(k, n)[i]` (this is how `jax_threefry_partitionable`
computes them).  What is recorded is the list of keys with which random numbers are drawn (or which
are handed to code outside the model, which may draw with them or derive further keys).  The
numbers themselves and what is computed from them are not modelled here. -/

namespace Jaqmc.Keys

/-- A random key: the derivation steps from the root key, outermost first. -/
abbrev Key := List Nat

/-- `jax.random.split(k, n)[i]`, and `jax.random.fold_in(k, i)`. -/
def child (k : Key) (i : Nat) : Key := k ++ [i]

/-- A piece of code which receives a key: the keys with which it draws. -/
abbrev Consumer := Key → List Key

/-- Code which does not use its key (`del rngs`): MCMC `init` (mcmc.py:88), most estimators. -/
def unused : Consumer := fun _ => []

/-- Code which draws once with its key; also opaque code (flax `init`, KFAC), which may derive any
keys from it. -/
def draws : Consumer := fun k => [k]

/-! ### Leaves -/

/-- `gaussian_proposal`, mcmc.py:53-54: `jax.tree.map` draws with the same key for each of the
`fields` arrays in the part of the data being moved. -/
def gaussianProposal (fields : Nat) : Consumer := fun k => List.replicate fields k

/-- `_sphere_move`, geometry/sphere.py:12-19 (one field). -/
def sphereProposal : Consumer := fun k => [child k 0, child k 1]

/-- `MCMCSampler._mh_update`, mcmc.py:125-134: the draws, and the key for the next update. -/
def mhUpdate (proposal : Consumer) (k : Key) : List Key × Key :=
  (proposal (child k 1) ++ [child k 2], child k 0)

/-- The `fori_loop` over `_mh_update`, mcmc.py:172-177. -/
def mhLoop (proposal : Consumer) : Nat → Key → List Key
  | 0, _ => []
  | n + 1, k => (mhUpdate proposal k).1 ++ mhLoop proposal n (mhUpdate proposal k).2

/-- `MCMCSampler.step`, mcmc.py:142-177 (`steps == 0` returns at once). -/
def mcmcStep (steps : Nat) (proposal : Consumer) : Consumer := fun k =>
  if steps = 0 then [] else mhLoop proposal steps k

/-- `Quadrature.sample_rotation_matrices`, ecp/quadrature.py:73-80. -/
def rotations (nSamples : Nat) : Consumer := fun k =>
  if nSamples = 0 then [] else
    let k1 := child k 0
    [child k 1, child k1 1]

/-- `_uniform_sample_sphere`, hall/estimator/one_rdm.py:88-90, and `hall/data.py:39-41`. -/
def uniformSphere : Consumer := fun k => [child k 0, child k 1]

/-- `hydrogen_atom.data_init`, hydrogen_atom.py:46-49. -/
def hydrogenData : Consumer := fun k => [child k 0, child k 1, child k 2]

/-- `distribute_spins`, utils/atomic/initialization.py:99-121: one draw for each electron flipped;
how many are flipped is not modelled. -/
def distributeSpins : Nat → Consumer
  | 0, _ => []
  | n + 1, k => child k 1 :: distributeSpins n (child k 0)

/-- `data_init` of molecules and solids, molecule/data.py:35-44, solid/data.py:58-68:
`rngs_position, rngs_spins = split(rngs)`; `initialize_electrons_gaussian` draws once
(initialization.py:159). -/
def atomsData (flips : Nat) : Consumer := fun k =>
  let position := child k 0
  let spins := child k 1
  distributeSpins flips spins ++ [position]

/-! ### Plans and pipelines -/

/-- A sampler: what it does with the keys of `init` and `step`. -/
structure Sampler where
  init : Consumer
  step : Consumer

/-- `SamplePlan.init`, sampler/base.py:137-140: every sampler receives the same key. -/
def planInit (samplers : List Sampler) : Consumer := fun k =>
  samplers.flatMap fun s => s.init k

/-- `SamplePlan.step`, sampler/base.py:169-181. -/
def planStep : List Sampler → Consumer
  | [], _ => []
  | s :: rest, k => s.step (child k 1) ++ planStep rest (child k 0)

/-- An estimator: what it does with the keys of `init` and `evaluate_batch_walkers`. -/
structure Estimator where
  init : Consumer
  evaluate : Consumer

/-- `PerWalkerEstimator.evaluate_batch_walkers`, estimator/base.py:265-270: one key per walker. -/
def perWalker (batch : Nat) (single : Consumer) : Consumer := fun k =>
  (List.range batch).flatMap fun i => single (child k i)

/-- `EstimatorPipeline.init`, estimator/base.py:323-329 (`j` counts the estimators before). -/
def pipelineInit : List Estimator → Nat → Consumer
  | [], _, _ => []
  | e :: rest, j, k => e.init (child k j) ++ pipelineInit rest (j + 1) k

/-- `EstimatorPipeline.evaluate`, estimator/base.py:350-360. -/
def pipelineEvaluate : List Estimator → Consumer
  | [], _ => []
  | e :: rest, k => e.evaluate (child k 1) ++ pipelineEvaluate rest (child k 0)

/-! ### Stages -/

/-- A stage: `VMCWorkStage` if `trains`, else `EvaluationWorkStage`. -/
structure Stage where
  samplers : List Sampler
  estimators : List Estimator
  /-- `wavefunction.init_params`. -/
  initParams : Consumer
  /-- `optimizer.init` and `optimizer.update`. -/
  optInit : Consumer
  optUpdate : Consumer
  trains : Bool
  burnIn : Int
  iterations : Nat

/-- `SamplingWorkStage.create_state`, stage/sampling.py:218-238. -/
def createSamplingState (st : Stage) (paramsGiven : Bool) : Consumer := fun k =>
  let sampler := child k 0
  let params := child k 1
  let est := child k 2
  (if paramsGiven then [] else st.initParams params)
    ++ planInit st.samplers sampler ++ pipelineInit st.estimators 0 est

/-- `create_state` of the stage: `VMCWorkStage.create_state` (stage/vmc.py:197-217) splits off a
key for the optimizer, an evaluation stage uses the inherited method. -/
def createState (st : Stage) (paramsGiven : Bool) : Consumer := fun k =>
  if st.trains then
    createSamplingState st paramsGiven (child k 0) ++ st.optInit (child k 1)
  else createSamplingState st paramsGiven k

/-- `_run_burn_in`, stage/sampling.py:254-266: the draws and the key handed back. -/
def burnInLoop (st : Stage) : Nat → Key → List Key × Key
  | 0, k => ([], k)
  | n + 1, k =>
    let r := burnInLoop st n (child k 0)
    (planStep st.samplers (child k 1) ++ r.1, r.2)

/-- `burn_in`, stage/sampling.py:286-301. -/
def burnIn (st : Stage) (k : Key) : List Key × Key :=
  if st.burnIn ≤ 0 then ([], k) else burnInLoop st st.burnIn.toNat k

/-- `VMCWorkStage.compute_step` (stage/vmc.py:238-262) and `EvaluationWorkStage.compute_step`
(stage/evaluation.py:187-193). -/
def computeStep (st : Stage) : Consumer := fun k =>
  if st.trains then
    planStep st.samplers (child k 0) ++ pipelineEvaluate st.estimators (child k 1)
      ++ st.optUpdate (child k 2)
  else
    planStep st.samplers (child k 0) ++ pipelineEvaluate st.estimators (child k 1)

/-- The main loop, stage/vmc.py:311-313 and stage/evaluation.py:257-259, for `n` remaining steps. -/
def mainLoop (st : Stage) : Nat → Consumer
  | 0, _ => []
  | n + 1, k => computeStep st (child k 1) ++ mainLoop st n (child k 0)

/-- `loop` on one device, stage/vmc.py:307-313, stage/evaluation.py:252-259. -/
def deviceLoop (st : Stage) (initialStep : Nat) : Consumer := fun k =>
  let r := if initialStep = 0 then burnIn st k else ([], k)
  r.1 ++ mainLoop st (st.iterations - initialStep) r.2

/-- `WorkStage.run`, stage/base.py:140-170: nothing is left to do, or one key per device. -/
def stageRun (st : Stage) (devices initialStep : Nat) : Consumer := fun k =>
  if st.iterations ≤ initialStep then [] else
    (List.range devices).flatMap fun d => deviceLoop st initialStep (child k d)

/-! ### Workflows -/

/-- `init_batched_data` on all processes, workflow/base.py:212-220. -/
def initData (data : Consumer) (processes : Nat) : Consumer := fun k =>
  (List.range processes).flatMap fun p => data (child k p)

/-- The machine and the checkpoints found: numbers of processes and devices, the step at which each
stage starts. -/
structure Machine where
  processes : Nat
  devices : Nat
  pretrainStart : Nat
  start : Nat

/-- The draws of a stage as the workflows run it (`state_rngs`, `run_rngs`): those of `create_state`
and those of `run`. -/
structure StageDraws where
  create : List Key
  run : List Key

/-- `VMCWorkflow.run`, workflow/vmc.py:101-126: draws of the data, of pretraining, of training. -/
def training (data : Consumer) (pretrain : Option Stage) (train : Stage) (m : Machine) (root : Key) :
    List Key × StageDraws × StageDraws :=
  let rngs := child root 0
  let dataDraws := initData data m.processes (child root 1)
  match pretrain with
  | some pre =>
    let rngs' := child rngs 0
    (dataDraws,
     ⟨createState pre false (child rngs 1), stageRun pre m.devices m.pretrainStart (child rngs 2)⟩,
     ⟨createState train true (child rngs' 1), stageRun train m.devices m.start (child rngs' 2)⟩)
  | none =>
    (dataDraws, ⟨[], []⟩,
     ⟨createState train false (child rngs 1), stageRun train m.devices m.start (child rngs 2)⟩)

/-- `EvaluationWorkflow.run`, workflow/evaluation.py:79-117: draws of the data and of the stage. -/
def evaluation (data : Consumer) (st : Stage) (m : Machine) (root : Key) : List Key × StageDraws :=
  let rngs := child root 0
  let rngs' := child rngs 0
  (initData data m.processes (child root 1),
   ⟨createState st false (child rngs 1), stageRun st m.devices m.start (child rngs' 1)⟩)

/-- All draws of a training run. -/
def trainingDraws (data : Consumer) (pretrain : Option Stage) (train : Stage) (m : Machine)
    (root : Key) : List Key :=
  let r := training data pretrain train m root
  r.1 ++ (r.2.1.create ++ r.2.1.run) ++ (r.2.2.create ++ r.2.2.run)

/-- All draws of an evaluation run. -/
def evaluationDraws (data : Consumer) (st : Stage) (m : Machine) (root : Key) : List Key :=
  let r := evaluation data st m root
  r.1 ++ (r.2.create ++ r.2.run)

end Jaqmc.Keys
