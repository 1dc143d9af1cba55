import Mathlib.Analysis.Real.Sqrt
import Mathlib.LinearAlgebra.Matrix.NonsingularInverse
import Mathlib.Algebra.Order.Archimedean.Real.Basic
import Mathlib.Data.Matrix.Mul
/-!
Model of `src/jaqmc/optimizer/sr/jasr.py` (and `sr.py`) in exact arithmetic.  The data-parallel axis has `dev` devices with
`m` samples each.  A score has `k` real parts per sample: one for a real log-wavefunction, two (real, imaginary) for a
complex one; rows are indexed by (device, sample, part).  The order in which rows are laid out in memory (device, part,
sample) only permutes the rows and columns of the Gram matrix.  Precision options (x64, `dot_prec`) and the pruning of
parameters (off in `SROptimizer`) are not part of this model.
-/
namespace Jaqmc.SR
open Matrix
open scoped Classical

variable {dev m k P : ℕ}

/-- A row of the (global) score matrix: device, sample, part. -/
abbrev Row (dev m k : ℕ) := Fin dev × Fin m × Fin k

/-! ### The score matrix, jasr.py:387-430 -/

/-- Scores as computed on every device: the derivative of the log-wavefunction of a sample with respect to each parameter,
jasr.py:387-398. -/
abbrev Raw (dev m k P : ℕ) := Fin dev → Fin m → Fin k → Fin P → ℝ

/-- `rescale`, jasr.py:407-409: the clip value over the mean modulus of the row, clipped to [0, 1]; a vanishing row gives
`c / 0 = inf` and 1 (for a positive clip value). -/
noncomputable def rescale (clip : Option ℝ) (raw : Raw dev m k P) (d : Fin dev) (i : Fin m) : ℝ :=
  match clip with
  | none => 1
  | some c =>
    let rowMean := (∑ j, Real.sqrt (∑ a, raw d i a j ^ 2)) / P
    if rowMean = 0 then 1 else min (max (c / rowMean) 0) 1

/-- `mean_score`, jasr.py:411-428: the local mean of the (rescaled) rows, averaged over the devices. -/
noncomputable def meanScore (clip : Option ℝ) (raw : Raw dev m k P) (a : Fin k) (j : Fin P) : ℝ :=
  (∑ d, (∑ i, rescale clip raw d i * raw d i a j) / m) / dev

/-- The centred, normalised score matrix, jasr.py:429-430, after stacking real and imaginary parts, jasr.py:453-454. -/
noncomputable def score (clip : Option ℝ) (raw : Raw dev m k P) : Matrix (Row dev m k) (Fin P) ℝ :=
  fun r j => (raw r.1 r.2.1 r.2.2 j * rescale clip raw r.1 r.2.1 - meanScore clip raw r.2.2 j) / Real.sqrt ((m * dev : ℕ) : ℝ)

/-! ### The Gram matrix, jasr.py:521-632 -/

/-- `score * sqrt(scale)`, jasr.py:547 and 597. -/
noncomputable def weighted (s : Matrix (Row dev m k) (Fin P) ℝ) (scale : Fin P → ℝ) : Matrix (Row dev m k) (Fin P) ℝ :=
  fun r j => s r j * Real.sqrt (scale j)

/-- `local_row_factor`, jasr.py:550-551 and 597-598. -/
noncomputable def rowFactor (s : Matrix (Row dev m k) (Fin P) ℝ) (scale : Fin P → ℝ) (r : Row dev m k) : ℝ :=
  max (⨆ j, |weighted s scale r j|) (1 / 10000)

/-- `pad_to_multiple(x, dev, axis=1)`, jasr.py:979-983, then split in `dev` equal column blocks by `all_to_all`: the width of
one block. -/
def blockWidth (width dev : ℕ) : ℕ := (width + (dev - width % dev) % dev) / dev

/-- The block of columns device `d` receives, for all rows, jasr.py:555-560: `x` has `width` columns, padded by zeros. -/
def reshard {width : ℕ} (x : Row dev m k → Fin width → ℝ) (d : Fin dev) (r : Row dev m k) (c : Fin (blockWidth width dev)) : ℝ :=
  if h : d * blockWidth width dev + c < width then x r ⟨d * blockWidth width dev + c, h⟩ else 0

/-- The product on each device, summed over the devices, jasr.py:563-566. -/
def gramOf {width : ℕ} (x : Row dev m k → Fin width → ℝ) : Matrix (Row dev m k) (Row dev m k) ℝ :=
  fun r t => ∑ d, ∑ c, reshard x d r c * reshard x d t c

/-- Putting back the row factors and symmetrizing, jasr.py:569-576 and 626-632. -/
noncomputable def finishGram (f : Row dev m k → ℝ) (G : Matrix (Row dev m k) (Row dev m k) ℝ) : Matrix (Row dev m k) (Row dev m k) ℝ :=
  fun r t => (G r t * (f r * f t) + G t r * (f t * f r)) / 2

/-- One chunk of columns, jasr.py:601-615: `start` is kept within bounds, columns before `raw_start` are masked. -/
noncomputable def chunk (s : Matrix (Row dev m k) (Fin P) ℝ) (scale : Fin P → ℝ) (cs id : ℕ) (r : Row dev m k) (c : Fin cs) : ℝ :=
  let rawStart := id * cs
  let start := min rawStart (P - cs)
  if h : start + c < P then
    (if rawStart ≤ start + c then weighted s scale r ⟨start + c, h⟩ else 0) / rowFactor s scale r
  else 0

/-- `calc_gram_matrix` and `calc_gram_matrix_chunked`, jasr.py:521-632. -/
noncomputable def gram (chunks : Option ℕ) (s : Matrix (Row dev m k) (Fin P) ℝ) (scale : Fin P → ℝ) : Matrix (Row dev m k) (Row dev m k) ℝ :=
  match chunks with
  | none => finishGram (rowFactor s scale) (gramOf fun r j => weighted s scale r j / rowFactor s scale r)
  | some n =>
    let cs := (P + n - 1) / n
    finishGram (rowFactor s scale) (∑ id ∈ Finset.range n, gramOf (chunk s scale cs id))

/-! ### Lifting the null space, jasr.py:635-661 -/

/-- `null_basis`, jasr.py:648-650: row `a`, at the rows of device `d`, part `p`. -/
def nullBasis (k : ℕ) (a : Fin k) (r : Row dev m k) : ℝ := 1 - (((a + (r.1 * k + r.2.2) : ℕ) % k : ℕ) : ℝ)

/-- `mean_vec`, jasr.py:651. -/
noncomputable def meanVec : Matrix (Fin k) (Row dev m k) ℝ := fun a r => nullBasis k a r / Real.sqrt ((m * dev : ℕ) : ℝ)

/-- `lift_null_space`, jasr.py:635-661. -/
noncomputable def lift (G : Matrix (Row dev m k) (Row dev m k) ℝ) : Matrix (Row dev m k) (Row dev m k) ℝ :=
  let V : Matrix (Fin k) (Row dev m k) ℝ := meanVec
  let shift : Matrix (Row dev m k) (Row dev m k) ℝ := fun r t => (∑ a, nullBasis k a r * nullBasis k a t) / ((m * dev : ℕ) : ℝ)
  let one := (G * Vᵀ) * V
  let all := Vᵀ * (V * one)
  G - one - oneᵀ + all + shift

/-! ### Damping, jasr.py:664-703 -/

/-- The Euclidean norm. -/
noncomputable def norm2 {ι : Type} [Fintype ι] (v : ι → ℝ) : ℝ := Real.sqrt (∑ i, v i ^ 2)

/-- `power_iteration`, jasr.py:664-684, from a start vector (a fixed random one in the code, normalised). -/
noncomputable def powerIteration {ι : Type} [Fintype ι] (A : Matrix ι ι ℝ) (v0 : ι → ℝ) (iters : ℕ) : ℝ :=
  let v := (fun v : ι → ℝ => fun i => (A *ᵥ v) i / norm2 (A *ᵥ v))^[iters] (fun i => v0 i / norm2 v0)
  v ⬝ᵥ (A *ᵥ v)

/-- `estimate_required_damping`, jasr.py:687-703 (`eig_min = 0`); a target of at most 1 is a `ValueError`. -/
noncomputable def requiredDamping {ι : Type} [Fintype ι] (A : Matrix ι ι ℝ) (v0 : ι → ℝ) (target : ℝ) : ℝ :=
  max (powerIteration A v0 10 / (target - 1)) 0

/-! ### The preconditioner, jasr.py:216-520 -/

/-- `robust_gamma`: a schedule (or scalar), `None` or `"sqrt"`. -/
inductive Gamma
  | schedule (f : ℕ → ℝ)
  | standard
  | sqrt

/-- Options of `scale_by_fisher_inverse`, jasr.py:216-235; scalars are constant schedules, `ensure_schedule`. -/
structure Config where
  damping : ℕ → ℝ
  maxCond : Option ℝ
  gamma : Gamma
  mu : Option (ℕ → ℝ)
  beta : Option (ℕ → ℝ)
  varMode : Bool
  eps : ℝ
  clip : Option ℝ
  chunks : Option ℕ

/-- `FisherInverseState`, jasr.py:201-213. -/
structure State (P : ℕ) where
  counter : ℕ
  prevDelta : Fin P → ℝ
  accVar : Fin P → ℝ

/-- `init_fn`, jasr.py:346-350. -/
def init (P : ℕ) : State P := ⟨0, fun _ => 0, fun _ => 1⟩

/-- `limit_gamma` and `get_gamma`, jasr.py:328-342. -/
noncomputable def getGamma (C : Config) (step : ℕ) (lam : ℝ) : ℝ :=
  let top := 1 / max lam C.eps
  let g := match C.gamma with
    | .schedule f => f step
    | .standard => 1 / max lam C.eps
    | .sqrt => 1 / Real.sqrt (max lam C.eps)
  min (max g (min 1 top)) (max 1 top)

/-- `normalize_masked(..., mode="mean")`, jasr.py:802-827. -/
noncomputable def normalizeMasked (x : Fin P → ℝ) (mask : Fin P → Prop) (j : Fin P) : ℝ :=
  let total := ∑ i, if mask i then x i else 0
  let count := ∑ i, if mask i then (1 : ℝ) else 0
  let n0 := if count > 0 then total / count else 1
  let n := if n0 > 0 then n0 else 1
  if mask j then x j / n else x j

/-- The accumulated variance used for the metric, jasr.py:438-447. -/
noncomputable def accVar (C : Config) (s : Matrix (Row dev m k) (Fin P) ℝ) (st : State P) (j : Fin P) : ℝ :=
  match C.beta with
  | some beta =>
    if C.varMode then
      let v := fun j => ∑ r, s r j ^ 2
      if v j > C.eps then beta st.counter * st.accVar j + (1 - beta st.counter) * normalizeMasked v (fun j => v j > C.eps) j else st.accVar j
    else st.accVar j
  | none => st.accVar j

/-- `scale`, jasr.py:449. -/
noncomputable def scaleOf (C : Config) (s : Matrix (Row dev m k) (Fin P) ℝ) (st : State P) (j : Fin P) : ℝ :=
  match C.beta with
  | some _ => 1 / Real.sqrt (accVar C s st j + C.eps)
  | none => 1

/-- The damping of a step, jasr.py:486-488. -/
noncomputable def lamOf (C : Config) (v0 : Row dev m k → ℝ) (G : Matrix (Row dev m k) (Row dev m k) ℝ) (step : ℕ) : ℝ :=
  match C.maxCond with
  | some c => max (C.damping step) (requiredDamping G v0 c)
  | none => C.damping step

/-- The matrix that is factorized, jasr.py:474-490. -/
noncomputable def system (C : Config) (v0 : Row dev m k → ℝ) (O : Matrix (Row dev m k) (Fin P) ℝ) (scale : Fin P → ℝ) (step : ℕ) :
    Matrix (Row dev m k) (Row dev m k) ℝ :=
  let G := lift (gram C.chunks O scale)
  G + lamOf C v0 G step • (1 : Matrix (Row dev m k) (Row dev m k) ℝ)

/-- `update_fn`, jasr.py:352-519: the preconditioned gradient and the new state.  `v0` is the start vector of the power
iteration.  `cho_solve` is the exact solution. -/
noncomputable def update (C : Config) (v0 : Row dev m k → ℝ) (raw : Raw dev m k P) (grad : Fin P → ℝ) (st : State P) :
    (Fin P → ℝ) × State P :=
  let O := score C.clip raw
  let p : Fin P → ℝ := fun j => match C.mu with
    | some mu => mu st.counter * st.prevDelta j
    | none => 0
  let acc := accVar C O st
  let scale := scaleOf C O st
  let sg : Fin P → ℝ := fun j => scale j * grad j
  let ug := O *ᵥ sg
  let up := O *ᵥ p
  let G := lift (gram C.chunks O scale)
  let lam := lamOf C v0 G st.counter
  let gamma := getGamma C st.counter lam
  let F := system C v0 O scale st.counter
  let w := F⁻¹ *ᵥ ug
  let z := F⁻¹ *ᵥ (fun r => gamma * ug r + up r - (1 - gamma * lam) * w r)
  let otz := Oᵀ *ᵥ z
  let delta : Fin P → ℝ := fun j => gamma * sg j + p j - scale j * otz j
  let acc' := match C.beta with
    | some beta => if C.varMode then acc else fun j => beta st.counter * acc j + (1 - beta st.counter) * (delta j - st.prevDelta j) ^ 2
    | none => acc
  (delta, ⟨st.counter + 1, delta, acc'⟩)

/-! ### The optimizer, jasr.py:63-199 and 706-757 -/

/-- `scale_by_constrained_norm`, jasr.py:706-757. -/
noncomputable def constrain (lr : ℕ → ℝ) (maxNorm : Option (ℕ → ℝ)) (eps : ℝ) (count : ℕ) (u : Fin P → ℝ) : Fin P → ℝ :=
  match maxNorm with
  | none => fun j => lr count * u j
  | some c => fun j => min (lr count) (c count / (norm2 u + eps)) * u j

/-- `max_norm`: none, `"fixed"` or a schedule. -/
inductive MaxNorm
  | none
  | fixed
  | schedule (f : ℕ → ℝ)

/-- `robust_sr`, jasr.py:63-199: preconditioner, constrained norm, `scale(-1)`.  The two stages of the chain each have a
counter; both start at 0 and grow by one. -/
noncomputable def step (C : Config) (lr : ℕ → ℝ) (maxNorm : MaxNorm) (v0 : Row dev m k → ℝ) (raw : Raw dev m k P)
    (grad : Fin P → ℝ) (st : State P × ℕ) : (Fin P → ℝ) × (State P × ℕ) :=
  let o := update C v0 raw grad st.1
  let u := match maxNorm with
    | .none => constrain lr none C.eps st.2 o.1
    | .fixed => constrain (fun _ => 10 ^ 8) (some lr) C.eps st.2 o.1
    | .schedule f => constrain lr (some f) C.eps st.2 o.1
  (fun j => -1 * u j, (o.2, st.2 + 1))

end Jaqmc.SR
