import Verif.Model.Stats

/-!
Arrays spread over devices and processes, and checkpoints of them.  Models

* `/repo/src/jaqmc/utils/parallel_jax.py:20-35, 131-187` (mesh, shardings, gathering);
* `/repo/src/jaqmc/workflow/base.py:188-228` (`init_batched_data`);
* `/repo/src/jaqmc/workflow/stage/sampling.py:32-60, 200-246` (`SamplingState.partition`, `process_allgather`);
* `/repo/src/jaqmc/workflow/stage/base.py:143-157` (restoring, `save`);
* `/repo/src/jaqmc/estimator/histogram.py:82-131` (a state with one row per device).

An array is the list of its rows (the leading axis).  The devices of the mesh are numbered process by process and every process has the
same number of them (this is how JAX numbers them).  What JAX does with such arrays (`device_put`, conversion to a NumPy array,
`make_array_from_process_local_data`) is modelled by what it does to the rows, including the three ways it can fail.
-/

namespace Jaqmc.Sharded

open Jaqmc.Stats (Kahan)

/-- `make_mesh`, parallel_jax.py:20-26: all devices of all processes, along one axis. -/
structure Mesh where
  procs : Nat
  perProc : Nat

/-- `jax.device_count()`. -/
def Mesh.devices (m : Mesh) : Nat := m.procs * m.perProc

/-- The process a device belongs to. -/
def Mesh.owner (m : Mesh) (d : Nat) : Nat := d / m.perProc

/-- `DATA_PARTITION` (rows spread over the devices) and `SHARE_PARTITION` (a copy on each). -/
inductive Layout where
  | data
  | shared
  deriving DecidableEq

/-- A `jax.Array`: its layout and what each device holds. -/
structure Arr (α : Type) where
  layout : Layout
  shards : List (List α)
  deriving DecidableEq

inductive Err where
  /-- `init_batched_data`, workflow/base.py:213-217 -/
  | batchSize
  /-- the leading axis is not divisible by the number of shards -/
  | notDivisible
  /-- `np.asanyarray` of an array with rows on another process -/
  | notAddressable
  deriving DecidableEq

/-- Rows `d*b, …, d*b+b-1`. -/
def block {α : Type} (b : Nat) (xs : List α) (d : Nat) : List α := (xs.drop (d * b)).take b

/-- `xs` cut into `n` blocks of equal length. -/
def blocks {α : Type} (n : Nat) (xs : List α) : List (List α) := (List.range n).map (block (xs.length / n) xs)

/-- `jax.device_put(xs, make_sharding(layout))`, parallel_jax.py:28-35. -/
def devicePut {α : Type} (m : Mesh) (l : Layout) (xs : List α) : Except Err (Arr α) :=
  match l with
  | .shared => .ok ⟨.shared, List.replicate m.devices xs⟩
  | .data => if xs.length % m.devices = 0 then .ok ⟨.data, blocks m.devices xs⟩ else .error .notDivisible

/-- The rows of an array, on whatever devices they are; this is what `process_allgather` (parallel_jax.py:131-166) gives every process. -/
def Arr.global {α : Type} (a : Arr α) : List α :=
  match a.layout with
  | .shared => a.shards.headD []
  | .data => a.shards.flatten

/-- `np.asanyarray(a)` in process `p`, as `np.savez_compressed` does with every leaf: a copy of a shared array is at hand; of
another array all rows have to be on devices of the process. -/
def Arr.fetch {α : Type} (m : Mesh) (p : Nat) (a : Arr α) : Except Err (List α) :=
  match a.layout with
  | .shared => .ok a.global
  | .data => if (List.range m.devices).all (fun d => m.owner d == p) then .ok a.global else .error .notAddressable

/-- `init_batched_data`, workflow/base.py:210-228.  `init n p` is what `data_init(n, rngs)` gives in process `p` (the key is folded with the
process number). -/
def initBatched {α : Type} (m : Mesh) (init : Nat → Nat → List α) (batch : Nat) : Except Err (Arr α) :=
  if batch % m.procs ≠ 0 then .error .batchSize else
  let locals := (List.range m.procs).map (init (batch / m.procs))
  if locals.all (fun xs => xs.length % m.perProc == 0) then .ok ⟨.data, locals.flatMap (blocks m.perProc)⟩ else .error .notDivisible

/-- `SamplingState`, sampling.py:32-43.  Of the walkers the batched fields; `est` are the leaves of `estimator_state`. -/
structure State (π α σ β : Type) where
  params : Arr π
  walkers : Arr α
  sampler : Arr σ
  est : List (String × Arr β)

/-- The arrays in a checkpoint. -/
structure File (π α σ β : Type) where
  params : List π
  walkers : List α
  sampler : List σ
  est : List (String × List β)
  deriving DecidableEq

/-- The leaves of the estimator state as NumPy arrays. -/
def fetchEst {β : Type} (m : Mesh) (p : Nat) : List (String × Arr β) → Except Err (List (String × List β))
  | [] => .ok []
  | (n, a) :: r => match a.fetch m p with
    | .error e => .error e
    | .ok xs => match fetchEst m p r with
      | .error e => .error e
      | .ok ys => .ok ((n, xs) :: ys)

/-- `save` of `WorkStage.run`, stage/base.py:154-157, in process `p = 0`: the walkers are gathered
(`SamplingState.process_allgather`, sampling.py:59-60), everything else is converted as it is (checkpoint.py:163-177). -/
def save {π α σ β : Type} (m : Mesh) (p : Nat) (st : State π α σ β) : Except Err (File π α σ β) :=
  match st.params.fetch m p with
  | .error e => .error e
  | .ok ps => match st.sampler.fetch m p with
    | .error e => .error e
    | .ok ss => match fetchEst m p st.est with
      | .error e => .error e
      | .ok es => .ok ⟨ps, st.walkers.global, ss, es⟩

/-- The leaves of the estimator state on the devices. -/
def putEst {β : Type} (m : Mesh) : List (String × List β) → Except Err (List (String × Arr β))
  | [] => .ok []
  | (n, xs) :: r => match devicePut m .data xs with
    | .error e => .error e
    | .ok a => match putEst m r with
      | .error e => .error e
      | .ok as => .ok ((n, a) :: as)

/-- Restoring, stage/base.py:146-148, with the partition of sampling.py:45-57 (the same partition is used when the state is created,
sampling.py:220-246). -/
def restore {π α σ β : Type} (m : Mesh) (f : File π α σ β) : Except Err (State π α σ β) :=
  match devicePut m .shared f.params with
  | .error e => .error e
  | .ok ps => match devicePut m .data f.walkers with
    | .error e => .error e
    | .ok ws => match devicePut m .shared f.sampler with
      | .error e => .error e
      | .ok ss => match putEst m f.est with
        | .error e => .error e
        | .ok es => .ok ⟨ps, ws, ss, es⟩

section
variable {K : Type} [Ring K]

/-- `HistogramEstimator.init`, histogram.py:82-88, at one bin: a row of zeros per device. -/
def histInit (m : Mesh) : List (Kahan K) := List.replicate m.devices Kahan.init

/-- One step of `evaluate_batch_walkers`, histogram.py:90-109, at one bin: on each device the counts of its walkers are added to the rows it
holds ("broadcasts naturally").  Exact arithmetic. -/
def histStep (a : Arr (Kahan K)) (counts : List K) : Arr (Kahan K) :=
  { a with shards := List.zipWith (fun rows c => rows.map (fun s => s.add id c)) a.shards counts }

/-- The steps of a run; `counts` has, for each step, the counts on each device. -/
def histRun (a : Arr (Kahan K)) (counts : List (List K)) : Arr (Kahan K) := counts.foldl histStep a

/-- `finalize_state`, histogram.py:120-131: `jnp.sum(state["histogram"], axis=0)`. -/
def histTotal (a : Arr (Kahan K)) : K := (a.global.map Kahan.histogram).sum

end

end Jaqmc.Sharded
