import Mathlib.Analysis.Calculus.FDeriv.Basic
import Mathlib.Analysis.Complex.Basic
import Mathlib.LinearAlgebra.Matrix.PosDef
import Mathlib.Analysis.SpecialFunctions.Sqrt
/-!
Model of the KFAC optimizer: `src/jaqmc/optimizer/kfac/{curvature_blocks,complex_support,kfac,tag_registration}.py`.  Exact arithmetic, no
dtypes.  The package `kfac_jax` (moving averages, preconditioning, norm constraint, tracing of the layers) is a dependency; the parts used
here are modelled by what they are documented to do and are named as such.  An exception is `none`.
-/
namespace Jaqmc.Kfac

/-- An array: shape and the entries in row-major order. -/
structure Tensor (α : Type) where
  shape : List ℕ
  data : ℕ → α

/-- `array.size`. -/
def Tensor.size {α : Type} (t : Tensor α) : ℕ := t.shape.prod

/-- `x.reshape([-1, f])`, curvature_blocks.py:126-127: the number of rows, and the entry of a row and a column; `none` if the size is not
divisible. -/
def Tensor.rows {α : Type} (t : Tensor α) (f : ℕ) : Option (ℕ × (ℕ → ℕ → α)) :=
  if f = 0 ∨ t.size % f ≠ 0 then none else some (t.size / f, fun i j => t.data (i * f + j))

/-- Python's `shape[-k:]`; `shape[-0:]` is the whole shape. -/
def lastDims (k : ℕ) (shape : List ℕ) : List ℕ := if k = 0 then shape else shape.drop (shape.length - k)

/-- `weight_dimension_split`, curvature_blocks.py:78-96. -/
def weightSplit (inputDim outputDim wDim : ℕ) : ℤ × ℤ :=
  let wIn := ((wDim : ℤ) - ((outputDim : ℤ) - inputDim)) / 2
  (wIn, wDim - wIn)

/-- `fixed_scale`, curvature_blocks.py:98-101. -/
def fixedScale (xShape : List ℕ) : ℕ := xShape.prod / (xShape.headD 0 * xShape.getLastD 0)

/-- The inputs with a column of ones after the last, curvature_blocks.py:131-133, 166-168. -/
def withOnes (bias : Bool) (f : ℕ) (x : ℕ → ℕ → ℝ) : ℕ × (ℕ → ℕ → ℝ) :=
  if bias then (f + 1, fun i j => if j < f then x i j else 1) else (f, x)

/-- `einsum("ay,az->yz", x, x) / batch_size`, curvature_blocks.py:135, 170. -/
noncomputable def inputStats (n : ℕ) (x : ℕ → ℕ → ℝ) (y z : ℕ) : ℝ := (∑ a ∈ Finset.range n, x a y * x a z) / n

/-- `einsum("ay,az->yz", dy.conj(), dy).real / batch_size`, curvature_blocks.py:136, 172. -/
noncomputable def outputStats (n : ℕ) (dy : ℕ → ℕ → ℂ) (y z : ℕ) : ℝ := (∑ a ∈ Finset.range n, (starRingEnd ℂ) (dy a y) * dy a z).re / n

/-- The two statistics with their sizes. -/
structure Stats where
  nIn : ℕ
  nOut : ℕ
  inp : ℕ → ℕ → ℝ
  out : ℕ → ℕ → ℝ

/-- `RepeatedDenseBlock.update_curvature_matrix_estimate`, curvature_blocks.py:103-141, up to the moving average; `wDim` is the number of
axes of the weight. -/
noncomputable def repeatedDense (bias : Bool) (wDim batch : ℕ) (x : Tensor ℝ) (dy : Tensor ℂ) : Option Stats :=
  if x.shape.headD 0 ≠ batch ∨ x.shape = [] then none
  else
    let s := weightSplit x.shape.length dy.shape.length wDim
    let fIn := (lastDims s.1.toNat x.shape).prod
    let fOut := (lastDims s.2.toNat dy.shape).prod
    match x.rows fIn, dy.rows fOut with
    | some (n, X), some (m, Y) =>
      if n = x.size / fIn ∧ m = x.size / fIn then
        let X1 := withOnes bias fIn X
        some ⟨X1.1, fOut, inputStats n X1.2, outputStats n Y⟩
      else none
    | _, _ => none

/-- `DenseTwoKroneckerFactored.update_curvature_matrix_estimate`, curvature_blocks.py:144-177: the subscripts `ay` need two axes. -/
noncomputable def dense (bias : Bool) (batch : ℕ) (x : Tensor ℝ) (dy : Tensor ℂ) : Option Stats :=
  match x.shape, dy.shape with
  | [b, f], [b', g] =>
    if b = batch ∧ b' = batch then
      let X1 := withOnes bias f fun i j => x.data (i * f + j)
      some ⟨X1.1, g, inputStats batch X1.2, outputStats batch fun i j => dy.data (i * g + j)⟩
    else none
  | _, _ => none

/-- `NaiveDiagonal.update_curvature_matrix_estimate`, curvature_blocks.py:180-201, one entry; `dw` is the derivative of the sum of the
outputs of the batch (a layer without a known structure sees no batch axis). -/
noncomputable def naive (batch : ℕ) (dw : ℂ) : ℝ := ((starRingEnd ℂ) dw * dw).re / batch

/-- `ScaleAndShiftDiagonal.update_curvature_matrix_estimate`, curvature_blocks.py:204-265, entry `f` of the scale, for a parameter with
the shape of the last axis, which is what tag_registration.py:94-117, 175-213 registers; `positions` are the axes between the first and the
last, over which `compatible_sum` sums. -/
noncomputable def scaleDiag (batch positions : ℕ) (x : ℕ → ℕ → ℕ → ℝ) (dy : ℕ → ℕ → ℕ → ℂ) (f : ℕ) : ℝ :=
  (∑ b ∈ Finset.range batch,
    ((starRingEnd ℂ) (∑ p ∈ Finset.range positions, (x b p f : ℂ) * dy b p f) * ∑ p ∈ Finset.range positions, (x b p f : ℂ) * dy b p f).re) / batch

/-- The same for the shift, curvature_blocks.py:246-263. -/
noncomputable def shiftDiag (batch positions : ℕ) (dy : ℕ → ℕ → ℕ → ℂ) (f : ℕ) : ℝ :=
  (∑ b ∈ Finset.range batch,
    ((starRingEnd ℂ) (∑ p ∈ Finset.range positions, dy b p f) * ∑ p ∈ Finset.range positions, dy b p f).re) / batch

/-- `WeightedMovingAverage` of kfac_jax (dependency). -/
structure Factor (n : ℕ) where
  weight : ℝ
  raw : Matrix (Fin n) (Fin n) ℝ

/-- The factor before the first update. -/
def Factor.zero (n : ℕ) : Factor n := ⟨0, 0⟩

/-- `factor.value`. -/
noncomputable def Factor.value {n : ℕ} (f : Factor n) : Matrix (Fin n) (Fin n) ℝ := f.weight⁻¹ • f.raw

/-- `_update_factor`, curvature_blocks.py:26-47. -/
noncomputable def Factor.update {n : ℕ} (f : Factor n) (value : Matrix (Fin n) (Fin n) ℝ) (old new : ℝ) : Factor n :=
  ⟨f.weight * old + new, old • f.raw + new • value⟩

/-- A history of updates: the statistics, `ema_old` and `ema_new` of each step. -/
noncomputable def Factor.run {n : ℕ} (h : List (Matrix (Fin n) (Fin n) ℝ × ℝ × ℝ)) : Factor n :=
  h.foldl (fun f u => f.update u.1 u.2.1 u.2.2) (Factor.zero n)

/-! ### Patterns of layers, tag_registration.py -/

/-- A dense pattern: bias, repeated axes, input and output axes. -/
structure Pattern where
  bias : Bool
  repeated : ℕ
  ins : ℕ
  outs : ℕ
  deriving DecidableEq

/-- The dense patterns of `make_graph_patterns`, tag_registration.py:247-257. -/
def densePatterns : List Pattern :=
  [true, false].flatMap fun b => (List.range 3).flatMap fun r => [1, 2].flatMap fun i => [1, 2].map fun o => ⟨b, r, i, o⟩

/-- The variant of `_make_flax_dense_pattern`, tag_registration.py:76-80, and `make_tag_to_block_ctor`, curvature_blocks.py:268-276. -/
inductive Block
  | repeatedDense
  | dense
  deriving DecidableEq

/-- tag_registration.py:76-80. -/
def Pattern.block (p : Pattern) : Block := if p.repeated > 0 then .repeatedDense else .dense

/-- The statistics taken for a layer recognised by a pattern. -/
noncomputable def Pattern.stats (p : Pattern) (batch : ℕ) (x : Tensor ℝ) (dy : Tensor ℂ) : Option Stats :=
  match p.block with
  | .repeatedDense => repeatedDense p.bias (p.ins + p.outs) batch x dy
  | .dense => dense p.bias batch x dy

/-! ### Complex outputs, complex_support.py -/

/-- `jax.vjp` of a real function (dependency): the covector times the Jacobian matrix. -/
noncomputable def vjp {n m : ℕ} (f : (Fin n → ℝ) → Fin m → ℝ) (x : Fin n → ℝ) (y : Fin m → ℝ) (i : Fin n) : ℝ :=
  ∑ k, y k * fderiv ℝ f x (Pi.single i 1) k

/-- `vjp_rc_with_aux`, complex_support.py:66-98: `f` has leaves numbered by `Fin L`, `cplx` says which are of complex type; the
values, and the function of the covector.  Only the first leaf is asked for its type. -/
noncomputable def vjpRc {n m L : ℕ} [NeZero L] (hasAux : Bool) (cplx : Fin L → Bool) (f : (Fin n → ℝ) → Fin L → Fin m → ℂ) (x : Fin n → ℝ) :
    Option ((Fin L → Fin m → ℂ) × ((Fin L → Fin m → ℝ) → Fin n → ℂ)) :=
  if hasAux = false then none
  else
    let re := fun y (i : Fin n) => ∑ l, vjp (fun z k => (f z l k).re) x (y l) i
    let im := fun y (i : Fin n) => ∑ l, vjp (fun z k => (f z l k).im) x (y l) i
    if cplx 0 then
      some (fun l k => ((f x l k).re : ℂ) + Complex.I * ((f x l k).im : ℂ), fun y i => (re y i : ℂ) + Complex.I * (im y i : ℂ))
    else some (fun l k => ((f x l k).re : ℂ), fun y i => (re y i : ℂ))

/-- The assignment in `finally`, complex_support.py:118-119: whatever the body left. -/
def finallyRestore {G : Type} (original _left : G) : G := original

/-- `patched_layer_tag_vjp`, complex_support.py:101-119: the global `jax.vjp` is replaced, the body is run (`body` is given the global, and
returns it with a result or an exception), and the original is put back in `finally`. -/
def patched {G α : Type} (original patch : G) (body : G → G × Option α) (_global : G) : G × Option α :=
  let r := body patch
  (finallyRestore original r.1, r.2)

/-! ### The optimizer, kfac.py -/

/-- The preconditioner of kfac_jax with the norm constraint (dependency; kfac.py:176-200 puts it after the learning rate): the solution
for the damped curvature, scaled so that the squared norm is at most the constraint. -/
noncomputable def precondition {d : ℕ} (F : Matrix (Fin d) (Fin d) ℝ) (constraint : ℝ) (v : Fin d → ℝ) : Fin d → ℝ :=
  let p := F⁻¹.mulVec v
  (min 1 (Real.sqrt (constraint / ∑ i, v i * p i))) • p

/-- `scale_by_learning_rate` of optax: the sign is changed. -/
def scaleByLearningRate {d : ℕ} (lr : ℕ → ℝ) (count : ℕ) (g : Fin d → ℝ) : Fin d → ℝ := fun i => -lr count * g i

/-- The optimizer: whether `init` has been called (`_tx` exists), kfac.py:139-141. -/
structure Optimizer where
  lr : ℕ → ℝ
  constraint : ℝ
  built : Bool

/-- The state: steps counted by the learning rate, and the curvature of the preconditioner (with damping). -/
structure State (d : ℕ) where
  count : ℕ
  F : Matrix (Fin d) (Fin d) ℝ

/-- `init`, kfac.py:88-112; `F` is the initial curvature. -/
def Optimizer.init {d : ℕ} (o : Optimizer) (F : Matrix (Fin d) (Fin d) ℝ) : Optimizer × State d := ({ o with built := true }, ⟨0, F⟩)

/-- `update`, kfac.py:114-155: the curvature is updated from the current batch first (`maybe`), then used. -/
noncomputable def Optimizer.update {d : ℕ} (o : Optimizer) (maybe : Matrix (Fin d) (Fin d) ℝ → Matrix (Fin d) (Fin d) ℝ) (g : Fin d → ℝ) (s : State d) :
    Option ((Fin d → ℝ) × State d) :=
  if o.built = false then none
  else
    let F := maybe s.F
    some (precondition F o.constraint (scaleByLearningRate o.lr s.count g), ⟨s.count + 1, F⟩)

end Jaqmc.Kfac
