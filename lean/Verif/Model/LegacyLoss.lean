import Verif.Model.LossGrad
import Verif.Model.SpinSquared
/-!
Model of `src/jaqmc_legacy/loss/{utils,vmc,spin_penalty,overlap_penalty,factory}.py` in exact arithmetic, with the floating-point
values NaN and the infinities kept apart. One parameter direction at a time; a batch is a list of shards, one per device.
A result that is NaN is `none`.
-/
namespace Jaqmc.LegacyLoss
open Jaqmc.LossGrad

/-- A floating-point number in exact arithmetic: a real number, NaN or an infinity. -/
inductive F where
  | num (x : ℝ)
  | nan
  | inf
  | ninf

/-- `jnp.isfinite`. -/
def F.isFinite : F → Bool
  | .num _ => true
  | _ => false

/-- `jnp.nan_to_num`: NaN to 0, the infinities to the largest number `big` and its negative. -/
def F.nanToNum (big : ℝ) : F → ℝ
  | .num x => x
  | .nan => 0
  | .inf => big
  | .ninf => -big

/-! ### Reductions over the batch -/

/-- `pmean_with_mask`, loss/utils.py:23-28: the sum over all devices of value times mask over that of the mask;
`0 / 0` is NaN. -/
noncomputable def pmeanMask (shards : List (List (ℝ × Bool))) : Option ℝ :=
  let num := (shards.map fun s => (s.map fun p => p.1 * (if p.2 then 1 else 0 : ℝ)).sum).sum
  let den := (shards.map fun s => (s.map fun p => (if p.2 then 1 else 0 : ℝ)).sum).sum
  if den = 0 then none else some (num / den)

/-- `pmean(jnp.mean(x))`: the average over the devices of the average on each; NaN if a device holds nothing. -/
noncomputable def pmeanMean (shards : List (List ℝ)) : Option ℝ :=
  if shards = [] ∨ [] ∈ shards then none
  else some ((shards.map fun s => s.sum / (s.length : ℝ)).sum / (shards.length : ℝ))

/-- Apply a function to the values, keeping the mask. -/
def onValues (f : ℝ → ℝ) (shards : List (List (ℝ × Bool))) : List (List (ℝ × Bool)) :=
  shards.map (List.map fun p => (f p.1, p.2))

/-! ### The energy, vmc.py -/

/-- `x.reshape((k, -1))`: `k` consecutive pieces of equal length; an error if the length is not divisible. -/
def reshapeParts {A : Type} (k : ℕ) (xs : List A) : Option (List (List A)) :=
  if k ≠ 0 ∧ xs.length % k = 0 then
    some ((List.range k).map fun i => (xs.drop (i * (xs.length / k))).take (xs.length / k))
  else none

/-- `jax.vmap(local_energy, in_axes=(None, 0, 0))` for fixed parameters. -/
def batchLocalEnergy {K W : Type} (el : K → W → F) (keys : List K) (data : List W) : List F :=
  List.zipWith el keys data

/-- The local energies of one device, vmc.py:98-108: in one go, or by a scan over `el_partition` pieces. -/
def localEnergies {K W : Type} (el : K → W → F) (partition : ℕ) (keys : List K) (data : List W) : Option (List F) :=
  if partition > 1 then do
    let d ← reshapeParts partition data
    let k ← reshapeParts partition keys
    return (List.zipWith (batchLocalEnergy el) k d).flatten
  else some (batchLocalEnergy el keys data)

/-- `is_finite` and `nan_to_num`, vmc.py:110-114. -/
def finiteMask (big : ℝ) (shards : List (List F)) : List (List (ℝ × Bool)) :=
  shards.map (List.map fun e => (e.nanToNum big, e.isFinite))

/-- The mask of `total_energy`, vmc.py:118-127; a comparison with NaN is false. -/
noncomputable def vmcMask (rmOutlier : Bool) (width : ℝ) (x : List (List (ℝ × Bool))) : List (List (ℝ × Bool)) :=
  if rmOutlier ∧ width > 0 then
    match pmeanMask x with
    | none => x.map (List.map fun p => (p.1, false))
    | some loss =>
      match pmeanMask (onValues (fun e => |e - loss|) x) with
      | none => x.map (List.map fun p => (p.1, false))
      | some tv => x.map (List.map fun p => (p.1, decide (loss - width * tv < p.1) && decide (loss + width * tv > p.1) && p.2))
  else x

/-- What `total_energy` returns: the loss, the variance, and the local energies with the mask, vmc.py:129-134. -/
structure VmcOut where
  loss : Option ℝ
  variance : Option ℝ
  masked : List (List (ℝ × Bool))

/-- `total_energy` from the local energies on, vmc.py:109-134. -/
noncomputable def totalEnergy (big : ℝ) (rmOutlier : Bool) (width : ℝ) (els : List (List F)) : VmcOut :=
  let masked := vmcMask rmOutlier width (finiteMask big els)
  let loss := pmeanMask masked
  ⟨loss, loss.bind fun l => pmeanMask (onValues (fun e => (e - l) ^ 2) masked), masked⟩

/-- `diff` of `total_energy_jvp` before the mask is applied, as a function of the local energy, vmc.py:144-158; NaN is `none`. -/
noncomputable def vmcDiff (clip : ℝ) (out : VmcOut) : Option (ℝ → ℝ) :=
  if clip > 0 then do
    let median ← nanquantile (1 / 2) (out.masked.flatten.map fun p => some p.1)
    let tv ← pmeanMask (onValues (fun e => |e - median|) out.masked)
    let clipped := fun e => min (max e (median - clip * tv)) (median + clip * tv)
    let m ← pmeanMask (onValues clipped out.masked)
    return fun e => clipped e - m
  else do
    let l ← out.loss
    return fun e => e - l

/-- `device_batch_size`, vmc.py:156, 159: the number of kept walkers when clipping, else the size of the shard. -/
noncomputable def deviceBatchSize (clip : ℝ) (shard : List (ℝ × Bool)) : ℝ :=
  if clip > 0 then (shard.map fun p => (if p.2 then 1 else 0 : ℝ)).sum else shard.length

/-- The tangent of the loss on every device, vmc.py:136-173: `tangents` are the derivatives of the logarithm of the wavefunction. -/
noncomputable def vmcJvp (clip : ℝ) (out : VmcOut) (tangents : List (List ℝ)) : List (Option ℝ) :=
  List.zipWith (fun ts shard =>
    match vmcDiff clip out with
    | none => none
    | some diff =>
      if deviceBatchSize clip shard = 0 then none
      else some ((List.zipWith (fun t p => t * (diff p.1 * (if p.2 then 1 else 0 : ℝ))) ts shard).sum / deviceBatchSize clip shard))
    tangents out.masked

/-! ### Local values of an operator, spin_penalty.py and overlap_penalty.py -/

inductive Err where
  | unboundLocal
  deriving DecidableEq

/-- `jnp.percentile(x, q)` of the gathered values. -/
noncomputable def percentile (q : ℝ) (shards : List (List ℝ)) : Option ℝ :=
  nanquantile (q / 100) (shards.flatten.map some)

/-- `local_value_mask`, spin_penalty.py:195-254 and overlap_penalty.py:106-160: with outliers to be removed and neither branch taken,
`mask` has no value. -/
noncomputable def localValueMask (big : ℝ) (rmOutlier : Bool) (schema : String) (width : ℝ) (bound : ℝ × ℝ) (vals : List (List F)) :
    Except Err (List (List (ℝ × Bool))) :=
  let x := finiteMask big vals
  let v := x.map (List.map Prod.fst)
  let none' := x.map (List.map fun p => (p.1, false))
  if rmOutlier then
    if schema = "deviation" ∧ width > 0 then
      match pmeanMean v with
      | none => .ok none'
      | some m =>
        match pmeanMean (v.map (List.map fun y => |y - m|)) with
        | none => .ok none'
        | some d => .ok (x.map (List.map fun p => (p.1, decide (m - width * d < p.1) && decide (m + width * d > p.1) && p.2)))
    else if schema = "percentile" ∧ bound.1 ≠ 0 ∧ bound.2 ≠ 100 then
      match percentile bound.1 v, percentile bound.2 v with
      | some lo, some hi => .ok (x.map (List.map fun p => (p.1, decide (p.1 > lo) && decide (p.1 < hi) && p.2)))
      | _, _ => .ok none'
    else .error .unboundLocal
  else .ok x

/-- `local_value_clip`, spin_penalty.py:257-310 and overlap_penalty.py:163-217; NaN limits make every value NaN. -/
noncomputable def localValueClip (schema : String) (width : ℝ) (bound : ℝ × ℝ) (x : List (List (ℝ × Bool))) : Option (List (List (ℝ × Bool))) :=
  let v := x.map (List.map Prod.fst)
  if schema = "deviation" then
    if width ≤ 0 then some x
    else do
      let m ← pmeanMean v
      let d ← pmeanMean (v.map (List.map fun y => |y - m|))
      return onValues (fun y => min (max y (m - width * d)) (m + width * d)) x
  else if schema = "percentile" then
    if bound.1 = 0 ∧ bound.2 = 100 then some x
    else do
      let lo ← percentile bound.1 v
      let hi ← percentile bound.2 v
      return onValues (fun y => min (max y lo) hi) x
  else some x

/-- `_product`, `isfinite`, `nan_to_num` and `pmean_with_structure_mask` of the derivatives of one parameter, spin_penalty.py:331-348,
436-449 and utils.py:30-39: the average of `c · g` over the walkers kept by the mask whose derivative `g` is finite (a factor does not
change whether a derivative that is not finite is dropped: `0 · inf` is NaN). -/
noncomputable def structureMean (big : ℝ) (c : List (List (ℝ × Bool))) (grads : List (List F)) : Option ℝ :=
  pmeanMask (List.zipWith (List.zipWith fun p g => (p.1 * g.nanToNum big, g.isFinite && p.2)) c grads)

/-- `self_adjoint_estimator_grad`, spin_penalty.py:313-348 and overlap_penalty.py:220-255. -/
noncomputable def selfAdjointGrad (big : ℝ) (x : List (List (ℝ × Bool))) (grads : List (List F)) : Option ℝ :=
  match pmeanMask x with
  | none => none
  | some m => structureMean big (onValues (fun y => y - m) x) grads

/-! ### The spin penalty, spin_penalty.py -/

section Spin
variable {nu nd : ℕ} {X : Type}
open Jaqmc.SpinSquared

/-- `idx_in_spin[sz_polar]`, spin_penalty.py:518-531. -/
def idxMajor (nu nd : ℕ) : List (Fin (nu + nd)) :=
  if nu > nd then (List.finRange (nu + nd)).filter (fun i => (i : ℕ) < nu) else (List.finRange (nu + nd)).filter (fun i => nu ≤ (i : ℕ))

/-- `idx_in_spin[sz_polar - 1]`, spin_penalty.py:518-531 (index `-1` is the last entry, index 1). -/
def idxMinor (nu nd : ℕ) : List (Fin (nu + nd)) :=
  if nu > nd then (List.finRange (nu + nd)).filter (fun i => nu ≤ (i : ℕ)) else (List.finRange (nu + nd)).filter (fun i => (i : ℕ) < nu)

/-- `swap` of `side_permute_coord`, spin_penalty.py:557-580 (one walker, one entry per electron). -/
def swapCoord {N : ℕ} (data : Fin N → X) (idx1 idx2 : Fin N) : Fin N → X :=
  let idxList := Function.update (id : Fin N → Fin N) idx1 idx2
  let idxList := Function.update idxList idx2 idx1
  fun i => data (idxList i)

/-- `side_permute_wavefn`, spin_penalty.py:592-618, for a wavefunction that vanishes at none of the configurations. -/
noncomputable def sidePermute (wf : (Fin (nu + nd) → X) → ℝ × ℝ) (data : Fin (nu + nd) → X) (idx : Fin (nu + nd)) : ℝ :=
  let orig := wf data
  let perms := (idxMajor nu nd).map fun j => wf (swapCoord data idx j)
  let sign := perms.map fun o => -o.1 * orig.1
  let logdet := perms.map fun o => o.2 - orig.2
  let valMax := shiftOf logdet
  (List.zipWith (fun l s => Real.exp (l - valMax) * s) logdet sign).sum * Real.exp valMax + 1

/-- `full_permute_wavefn`, spin_penalty.py:620-641. -/
noncomputable def fullPermute (wf : (Fin (nu + nd) → X) → ℝ × ℝ) (data : Fin (nu + nd) → X) : ℝ :=
  ((idxMinor nu nd).map (sidePermute wf data)).sum

/-- `spin_square`, spin_penalty.py:643-653. -/
noncomputable def spinSquare (wf : (Fin (nu + nd) → X) → ℝ × ℝ) (data : Fin (nu + nd) → X) : ℝ :=
  let s := |(nu : ℝ) - (nd : ℝ)| * 0.5
  s * (s + 1) + fullPermute wf data

/-- `spin_square_approx`, spin_penalty.py:655-673; `none` when there is no minority electron. -/
noncomputable def spinSquareApprox (wf : (Fin (nu + nd) → X) → ℝ × ℝ) (data : Fin (nu + nd) → X) : Option ℝ :=
  (idxMinor nu nd)[0]?.map fun idx =>
    let s := |(nu : ℝ) - (nd : ℝ)| * 0.5
    s * (s + 1) + sidePermute wf data idx * ((if nu > nd then nd else nu : ℕ) : ℝ)

/-- `idx` of `fn_spin_penalty`, spin_penalty.py:361-362; `none` when there is no minority electron. -/
def swapIndex (nu nd step : ℕ) : Option (Fin (nu + nd)) := (idxMinor nu nd)[step % min nu nd]?

inductive Schema where
  | square
  | plus
  | plusFix

/-- The local value of the penalty, `make_spin_penalty_helper`, spin_penalty.py:156-183; `none` when there is no minority electron. -/
noncomputable def penaltyLocal (schema : Schema) (step : ℕ) (wf : (Fin (nu + nd) → X) → ℝ × ℝ) (data : Fin (nu + nd) → X) : Option ℝ :=
  (swapIndex nu nd step).bind fun idx =>
    match schema with
    | .square => some (fullPermute wf data)
    | .plus => some (sidePermute wf data idx * ((min nu nd : ℕ) : ℝ))
    | .plusFix => (idxMinor nu nd)[0]?.map fun i => sidePermute wf data i * ((min nu nd : ℕ) : ℝ)

end Spin

/-- The options of the spin penalty, spin_penalty.py:13-53. -/
structure SpinCfg where
  weight : ℝ
  rmOutlier : Bool
  outlierSchema : String
  outlierWidth : ℝ
  outlierBound : ℝ × ℝ
  clipSchema : String
  clipWidth : ℝ
  clipBound : ℝ × ℝ

/-- `DEFAULT_SPIN_PENALTY_CONFIG`, spin_penalty.py:13-53. -/
noncomputable def defaultSpinCfg : SpinCfg := ⟨2, true, "deviation", 10, (1, 99), "deviation", 5, (0, 100)⟩

/-- `SpinAuxData`, spin_penalty.py:65-91. -/
structure SpinAux where
  estimator : Option ℝ
  penalty : Option ℝ
  variance : Option ℝ
  masked : List (List (ℝ × Bool))

/-- `fn_spin_penalty` from the local values on, spin_penalty.py:363-388. -/
noncomputable def spinPenalty (big : ℝ) (cfg : SpinCfg) (nu nd : ℕ) (locals : List (List F)) : Except Err SpinAux :=
  match localValueMask big cfg.rmOutlier cfg.outlierSchema cfg.outlierWidth cfg.outlierBound locals with
  | .error e => .error e
  | .ok masked =>
    let pen := pmeanMask masked
    let s := |(nu : ℝ) - (nd : ℝ)| * 0.5
    .ok ⟨pen.map fun p => s * (s + 1) + p, pen, pen.bind fun p => pmeanMask (onValues (fun y => (y - p) ^ 2) masked), masked⟩

/-- `fn_spin_grad`, spin_penalty.py:409-456, for one parameter: `logGrads` are the derivatives of the logarithm of the wavefunction,
`localGrads` those of the local values of the penalty. -/
noncomputable def spinGrad (big : ℝ) (cfg : SpinCfg) (aux : SpinAux) (logGrads localGrads : List (List F)) : Option ℝ := do
  let clipped ← localValueClip cfg.clipSchema cfg.clipWidth cfg.clipBound aux.masked
  let part1 ← selfAdjointGrad big clipped logGrads
  let part2 ← structureMean big (onValues (fun _ => 1) aux.masked) localGrads
  let pen ← aux.penalty
  return cfg.weight * (2 * part1 + part2) * pen

/-- What the spin penalty contributes: the loss, the returned step and the gradient, spin_penalty.py:132-133, 390-407, 458-500: the gradient is
that of `fn_spin_grad` if `with_spin_grad` (by default: if the weight is positive), else 0. -/
noncomputable def spinLoss (big : ℝ) (cfg : SpinCfg) (withGrad : Option Bool) (nu nd : ℕ) (step : ℕ) (locals logGrads localGrads : List (List F)) :
    Except Err (ℝ × ℕ × SpinAux × Option ℝ) :=
  match spinPenalty big cfg nu nd locals with
  | .error e => .error e
  | .ok aux => .ok (0, step, aux, if (withGrad.getD (decide (cfg.weight > 0))) then spinGrad big cfg aux logGrads localGrads else some 0)

/-! ### The overlap penalty, overlap_penalty.py -/

/-- The largest entry, `jnp.max(gather(jnp.max(·)))`. -/
noncomputable def maxOf (xs : List ℝ) : ℝ := SpinSquared.shiftOf xs

/-- `div_in_dist`, overlap_penalty.py:288-313: `vals` are the products of the signs and the differences of the logarithms. Returns the
mean and the local values with their mask. -/
noncomputable def divInDist (big : ℝ) (bound : ℝ × ℝ) (vals : List (List (ℝ × F))) : Option ℝ × Option (List (List (ℝ × Bool))) :=
  let masked := finiteMask big (vals.map (List.map Prod.snd))
  let logDiff := masked.map (List.map fun p => (p.1 * (if p.2 then 1 else 0 : ℝ), p.2))
  match localValueClip "percentile" 5 bound logDiff with
  | none => (none, none)
  | some logDiff =>
    let maxVal := maxOf (logDiff.flatten.map Prod.fst)
    let prefactor := Real.exp maxVal
    let res := List.zipWith (List.zipWith fun v p => (v.1 * Real.exp (p.1 - maxVal), p.2)) vals logDiff
    ((pmeanMask res).map (· * prefactor), some (onValues (· * prefactor) res))

/-- The sign product and the difference of the logarithms of two wavefunctions, overlap_penalty.py:289-291. -/
def logRatio (a b : ℝ × F) : ℝ × F :=
  (a.1 * b.1, match a.2, b.2 with
    | .num x, .num y => .num (x - y)
    | .nan, _ => .nan
    | _, .nan => .nan
    | .num _, .inf => .ninf
    | .num _, .ninf => .inf
    | .inf, .num _ => .inf
    | .ninf, .num _ => .ninf
    | .inf, .ninf => .inf
    | .ninf, .inf => .ninf
    | .inf, .inf => .nan
    | .ninf, .ninf => .nan)

/-- One target state: the ratios of current to target on the walkers of the target, and of target to current on the current walkers,
overlap_penalty.py:318-330. -/
structure Target where
  fixed : List (List (ℝ × F))
  current : List (List (ℝ × F))

/-- The overlap with one target, overlap_penalty.py:318-330. -/
noncomputable def overlapOf (big : ℝ) (bound : ℝ × ℝ) (t : Target) : Option ℝ :=
  match (divInDist big bound t.fixed).1, (divInDist big bound t.current).1 with
  | some a, some b => some (a * b)
  | _, _ => none

/-- The gradient of one target's term, `weight * mean * self_adjoint_estimator_grad(div)`, overlap_penalty.py:359-375. -/
noncomputable def overlapTerm (big : ℝ) (bound : ℝ × ℝ) (t : Target) (weight : ℝ) (logGrads : List (List F)) : Option ℝ := do
  let mean ← (divInDist big bound t.fixed).1
  let div ← (divInDist big bound t.current).2
  let g ← selfAdjointGrad big div logGrads
  return weight * mean * g

/-- `fn_overlap_grad`, overlap_penalty.py:359-375: the first term, the others added one after the other for as long as there are both
targets and weights; no target or no weight is an error. -/
noncomputable def overlapGrad (big : ℝ) (bound : ℝ × ℝ) (targets : List Target) (weights : List ℝ) (logGrads : List (List F)) : Option (Option ℝ) :=
  match targets, weights with
  | t :: ts, w :: ws =>
    some ((ts.zip ws).foldl (fun acc u => nadd acc (overlapTerm big bound u.1 u.2 logGrads)) (overlapTerm big bound t w logGrads))
  | _, _ => none

/-- `fn_loss_with_overlap_penalty` and its gradient, overlap_penalty.py:332-375, 378-386: the loss 0, the state as it was, the
overlaps with the targets, and the gradient. -/
noncomputable def overlapLoss {S : Type} (big : ℝ) (bound : ℝ × ℝ) (state : S) (targets : List Target) (weights : List ℝ) (logGrads : List (List F)) :
    Option (ℝ × S × List (Option ℝ) × Option ℝ) :=
  (overlapGrad big bound targets weights logGrads).map fun g => (0, state, targets.map (overlapOf big bound), g)

/-! ### The total loss, factory.py -/

/-- A loss component: its name, and for a state and a key (with fixed parameters and data) its value, new state, auxiliary data and
gradient. A state is `none` when it is Python's `None`; a gradient is `none` when it is NaN. -/
structure Component (S A K : Type) where
  name : String
  run : Option S → K → ℝ × Option S × A
  grad : Option S → K → Option ℝ

/-- A dictionary entry, or the default `None` of the dataclasses `FuncState` and `AuxData`, factory.py:25-41. -/
def fieldOf {V : Type} (entries : List (String × V)) (name : String) : Option V := entries.lookup name

/-- The loop of `total_loss`, factory.py:116-130: the components in turn, each with a fresh key. -/
def lossLoop {S A K : Type} (split : K → K × K) (state : String → Option S) : List (Component S A K) → K → ℝ → List (String × Option S) →
    List (String × A) → ℝ × List (String × Option S) × List (String × A)
  | [], _, loss, ss, as => (loss, ss, as)
  | c :: cs, key, loss, ss, as =>
    let (key, sub) := split key
    let (primal, s, a) := c.run (state c.name) sub
    lossLoop split state cs key (loss + primal) (ss ++ [(c.name, s)]) (as ++ [(c.name, a)])

/-- `total_loss`, factory.py:116-131: the value, the new state and the auxiliary data by name. -/
def totalLoss {S A K : Type} (split : K → K × K) (comps : List (Component S A K)) (state : String → Option S) (key : K) :
    ℝ × (String → Option S) × (String → Option A) :=
  let r := lossLoop split state comps key 0 [] []
  (r.1, fun n => (fieldOf r.2.1 n).join, fieldOf r.2.2)

/-- The gradient of `total_loss`: that of the sum `_loss`, factory.py:123-128. -/
noncomputable def totalGrad {S A K : Type} (split : K → K × K) (state : String → Option S) : List (Component S A K) → K → Option ℝ → Option ℝ
  | [], _, acc => acc
  | c :: cs, key, acc => totalGrad split state cs (split key).1 (nadd acc (c.grad (state c.name) (split key).2))

/-- The components `make_loss` assembles, factory.py:103-114. -/
def components {S A K : Type} (vmc spin overlap : Component S A K) (withSpin withOverlap : Bool) : List (Component S A K) :=
  [vmc] ++ (if withSpin then [spin] else []) ++ (if withOverlap then [overlap] else [])

/-- `_get_relevant_kwargs`, factory.py:134-145. -/
def relevantKwargs {V : Type} (params : List String) (kwargs : List (String × V)) : List (String × V) :=
  kwargs.filter fun kv => params.contains kv.1

/-- The parameter names of the three factories, vmc.py:33-39, spin_penalty.py:93-99, overlap_penalty.py:55-61. -/
def vmcParams : List String :=
  ["signed_network", "local_energy", "clip_local_energy", "rm_outlier", "el_partition", "local_energy_outlier_width"]
def spinParams : List String := ["signed_network", "local_energy", "nspins", "spin_cfg", "with_spin_grad"]
def overlapParams : List String := ["signed_network", "local_energy", "optim_cfg", "overlap_wf", "overlap_weights"]

/-- Those of the parameters that are not the two positional ones and have no default value, vmc.py:33-39, spin_penalty.py:93-99,
overlap_penalty.py:55-61. -/
def vmcRequired : List String := []
def spinRequired : List String := ["nspins"]
def overlapRequired : List String := ["optim_cfg", "overlap_wf", "overlap_weights"]

/-- `invoke`, factory.py:92-100: the keyword arguments a factory is called with; a missing argument is a `TypeError`. -/
def invoke {V : Type} (params required : List String) (kwargs : List (String × V)) : Option (List (String × V)) :=
  let rel := relevantKwargs params kwargs
  if required.all (fun r => (rel.map Prod.fst).contains r) then some rel else none

/-- What `make_loss` calls each factory with, factory.py:102-114; an error if one of the calls is. -/
def makeLoss {V : Type} (withSpin withOverlap : Bool) (kwargs : List (String × V)) :
    Option (List (String × V) × Option (List (String × V)) × Option (List (String × V))) := do
  let v ← invoke vmcParams vmcRequired kwargs
  let s ← if withSpin then (invoke spinParams spinRequired kwargs).map some else some none
  let o ← if withOverlap then (invoke overlapParams overlapRequired kwargs).map some else some none
  return (v, s, o)

/-- `build_func_state`, factory.py:43-61: the step and the walkers of the targets, each `None` if not given. -/
def buildFuncState {S : Type} (step overlapData : Option S) : String → Option S
  | "spin" => step
  | "overlap" => overlapData
  | _ => none

end Jaqmc.LegacyLoss
