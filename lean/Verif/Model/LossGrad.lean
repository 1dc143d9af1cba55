import Verif.Model.Stats
import Mathlib.Data.Complex.Basic
import Mathlib.Data.List.Sort
import Mathlib.Algebra.Order.Floor.Semiring
import Mathlib.Algebra.Order.Archimedean.Real.Basic
/-!
Model of `src/jaqmc/utils/clip.py` and `src/jaqmc/estimator/loss_grad.py`.
Exact real and complex arithmetic; NaN is `none` (a complex number with a NaN component counts as NaN).
A batch is a list of shards (one per device), each a list of walkers.
-/
namespace Jaqmc.LossGrad
open Jaqmc.Stats

/-! ### Clipping -/

/-- `jnp.nanquantile(x, q)` with linear interpolation: sort the non-NaN values and interpolate at
position `q (n-1)`; NaN when there are none.  `jnp.nanmedian` is the quantile at 1/2. -/
noncomputable def nanquantile (q : ℝ) (xs : List (Option ℝ)) : Option ℝ :=
  let s := (xs.filterMap id).insertionSort (· ≤ ·)
  if s = [] then none
  else
    let pos : ℝ := q * ((s.length : ℝ) - 1)
    let low := ⌊pos⌋₊
    let high := ⌈pos⌉₊
    let weight : ℝ := pos - low
    match s[low]?, s[high]? with
    | some a, some b => some (a * (1 - weight) + b * weight)
    | _, _ => none

/-- `jnp.clip(x, lo, hi)` with NaN propagation. -/
noncomputable def clip : Option ℝ → Option ℝ → Option ℝ → Option ℝ
  | some x, some lo, some hi => some (min (max x lo) hi)
  | _, _, _ => none

/-- NaN-propagating arithmetic. -/
noncomputable def nadd (a b : Option ℝ) : Option ℝ := a.bind (fun x => b.map (fun y => x + y))
noncomputable def nscale (c : ℝ) (a : Option ℝ) : Option ℝ := a.map (fun x => c * x)
noncomputable def nminus (a b : Option ℝ) : Option ℝ := a.bind (fun x => b.map (fun y => x - y))
noncomputable def nabs (a : Option ℝ) : Option ℝ := a.map abs

/-- `iqr_clip` on real values, clip.py:11-25; `all_gather` concatenates the shards. -/
noncomputable def iqrClip (scale : ℝ) (shards : List (List (Option ℝ))) : List (List (Option ℝ)) :=
  let q1 := nanquantile (1 / 4) shards.flatten
  let q3 := nanquantile (3 / 4) shards.flatten
  let iqr := nminus q3 q1
  shards.map (List.map (fun x => clip x (nminus q1 (nscale scale iqr)) (nadd q3 (nscale scale iqr))))

/-- `mad_clip` on real values, clip.py:28-41. -/
noncomputable def madClip (scale : ℝ) (shards : List (List (Option ℝ))) : List (List (Option ℝ)) :=
  let median := nanquantile (1 / 2) shards.flatten
  let absdev := nanquantile (1 / 2) (shards.flatten.map (fun x => nabs (nminus x median)))
  shards.map (List.map (fun x => clip x (nminus median (nscale scale absdev)) (nadd median (nscale scale absdev))))

inductive ClipErr where
  | valueError
  deriving DecidableEq

/-- `clip_observable` on real values, clip.py:44-68. -/
noncomputable def clipReal (method : String) (scale : ℝ) (shards : List (List (Option ℝ))) :
    Except ClipErr (List (List (Option ℝ))) :=
  if method = "iqr" then .ok (iqrClip scale shards)
  else if method = "mad" then .ok (madClip scale shards)
  else if method = "none" then .ok shards
  else .error .valueError

/-- `a + 1j * b` with NaN propagation. -/
noncomputable def ncomplex (a b : Option ℝ) : Option ℂ := a.bind (fun x => b.map (fun y => ⟨x, y⟩))

/-- `clip_observable` on complex values: real and imaginary parts are clipped separately
(clip.py:19-20, 36-37). -/
noncomputable def clipComplex (method : String) (scale : ℝ) (shards : List (List (Option ℂ))) :
    Except ClipErr (List (List (Option ℂ))) :=
  let re := shards.map (List.map (Option.map Complex.re))
  let im := shards.map (List.map (Option.map Complex.im))
  match clipReal method scale re, clipReal method scale im with
  | .ok a, .ok b => .ok (List.zipWith (List.zipWith ncomplex) a b)
  | .error e, _ => .error e
  | _, .error e => .error e

/-! ### Loss and gradient -/

/-- One walker: the derivative of log ψ with respect to one parameter, and the local energy. -/
structure Walker where
  grad : Option ℂ
  loss : Option ℂ

/-- The statistics `LossAndGrad.reduce` reports (for one parameter), loss_grad.py:96-111. -/
structure Reduced where
  gradAndLoss : Option ℝ
  loss : Option ℂ
  clippedLoss : Option ℂ
  grad : Option ℂ

/-- `jnp.real(jnp.conj(x) * clipped_loss)` for one walker, loss_grad.py:100-103. -/
noncomputable def weighted (g e : Option ℂ) : Option ℝ :=
  g.bind (fun g => e.map (fun e => ((starRingEnd ℂ) g * e).re))

/-- `LossAndGrad.reduce`, loss_grad.py:96-111, for one parameter. -/
noncomputable def reduce (method : String) (scale : ℝ) (shards : List (List Walker)) : Except ClipErr Reduced :=
  match clipComplex method scale (shards.map (List.map Walker.loss)) with
  | .error e => .error e
  | .ok clipped =>
    .ok ⟨meanOf (List.zipWith (List.zipWith weighted) (shards.map (List.map Walker.grad)) clipped),
      meanOf (shards.map (List.map Walker.loss)),
      meanOf clipped,
      meanOf (shards.map (List.map Walker.grad))⟩

/-- `LossAndGrad.finalize_stats`, loss_grad.py:113-128: averages over steps, subtracts the baseline, doubles.
Returns the loss and the gradient. -/
noncomputable def finalize (steps : List Reduced) : Option ℂ × Option ℝ :=
  let p := nmean (steps.map (·.gradAndLoss))
  let g := nmean (steps.map (·.grad))
  let c := nmean (steps.map (·.clippedLoss))
  let base : Option ℝ := g.bind (fun g => c.map (fun c => (-c * g).re))
  (nmean (steps.map (·.loss)), nscale 2 (nadd p base))

/-- Reduction of every step. -/
noncomputable def reduceSteps (method : String) (scale : ℝ) : List (List (List Walker)) → Except ClipErr (List Reduced)
  | [] => .ok []
  | s :: ss =>
    match reduce method scale s, reduceSteps method scale ss with
    | .ok r, .ok rs => .ok (r :: rs)
    | .error e, _ => .error e
    | _, .error e => .error e

/-- The loss and the gradient of a run of steps (one step in training): reduction of each, then
finalisation. -/
noncomputable def lossAndGrad (method : String) (scale : ℝ) (steps : List (List (List Walker))) :
    Except ClipErr (Option ℂ × Option ℝ) :=
  match reduceSteps method scale steps with
  | .ok rs => .ok (finalize rs)
  | .error e => .error e

end Jaqmc.LossGrad
