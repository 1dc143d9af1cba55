import Mathlib.Analysis.Calculus.FDeriv.Basic
import Mathlib.Analysis.Complex.Basic
import Mathlib.Analysis.SpecialFunctions.Trigonometric.Basic
import Verif.Model.Hall
/-!
Model of the kinetic-energy estimators, `estimator/kinetic/{_common,euclidean,spherical}.py`, and of the transforms
`utils/func_transform.py` they use.  Exact arithmetic.  `f` is the function `x ↦ f_log_psi(params, data.merge({field: x}))`;
JAX's automatic differentiation is modelled by Mathlib's derivative.  Position arrays are flattened in the Euclidean
estimator (as the code does itself); on the sphere an electron is a pair `(theta, phi)`.
-/
namespace Jaqmc.Kinetic
open scoped BigOperators

section
variable {E : Type} [NormedAddCommGroup E] [NormedSpace ℝ E]

/-- The derivative of a real function in direction `d`. -/
noncomputable def pd (d : E) (f : E → ℝ) (x : E) : ℝ := fderiv ℝ f x d

/-- `transform_maybe_complex`, func_transform.py:117-127: real and imaginary parts differentiated separately and recombined. -/
noncomputable def pdC (d : E) (f : E → ℂ) (x : E) : ℂ :=
  (pd d (fun y => (f y).re) x : ℂ) + Complex.I * (pd d (fun y => (f y).im) x : ℂ)

end

/-! ### Euclidean -/

variable {n : ℕ}

/-- The `i`-th row of `jnp.eye(n)`. -/
def eye (i : Fin n) : Fin n → ℝ := Pi.single i 1

/-- `jax.grad(f)`: one component per coordinate. -/
noncomputable def grad (f : (Fin n → ℝ) → ℝ) (x : Fin n → ℝ) : Fin n → ℝ := fun i => pd (eye i) f x

/-- `grad_maybe_complex(f)` for a complex function, func_transform.py:151-166. -/
noncomputable def gradC (f : (Fin n → ℝ) → ℂ) (x : Fin n → ℝ) : Fin n → ℂ := fun i => pdC (eye i) f x

/-- `jax.linearize(F, x)`. -/
noncomputable def linearize (F : (Fin n → ℝ) → Fin n → ℝ) (x : Fin n → ℝ) : (Fin n → ℝ) × ((Fin n → ℝ) → Fin n → ℝ) :=
  (F x, fun v => fderiv ℝ F x v)

/-- `linearize_maybe_complex(F, x)` for a complex function, func_transform.py:132-157. -/
noncomputable def linearizeC (F : (Fin n → ℝ) → Fin n → ℂ) (x : Fin n → ℝ) : (Fin n → ℂ) × ((Fin n → ℝ) → Fin n → ℂ) :=
  let re := linearize (fun y i => (F y i).re) x
  let im := linearize (fun y i => (F y i).im) x
  (fun i => (re.1 i : ℂ) + Complex.I * (im.1 i : ℂ), fun v i => (re.2 v i : ℂ) + Complex.I * (im.2 v i : ℂ))

/-- `LaplacianMode`, _common.py:14-35, the two modes with a Hessian. -/
inductive Mode
  | scan | foriLoop
  deriving DecidableEq

/-- `_apply_kinetic_formula`, _common.py:60-73. -/
noncomputable def kineticFormula {K : Type} [DivisionRing K] (laplacian gradSquared : K) : K := -(1 / 2) * laplacian - 1 / 2 * gradSquared

/-- The Laplacian of `_evaluate_standard`, euclidean.py:102-112: `scan` stacks the diagonal entries and sums them,
`fori_loop` adds them to an accumulator. -/
noncomputable def diagonalSum {K : Type} [Ring K] (mode : Mode) (dgrad : (Fin n → ℝ) → Fin n → K) : K :=
  match mode with
  | .scan => ((List.finRange n).map fun i => dgrad (eye i) i).sum
  | .foriLoop => (List.finRange n).foldl (fun val i => val + dgrad (eye i) i) 0

/-- `EuclideanKinetic._evaluate_standard`, euclidean.py:84-115, real `log psi`. -/
noncomputable def standard (mode : Mode) (f : (Fin n → ℝ) → ℝ) (x : Fin n → ℝ) : ℝ :=
  let l := linearize (grad f) x
  kineticFormula (diagonalSum mode l.2) (∑ i, l.1 i ^ 2)

/-- `EuclideanKinetic._evaluate_standard`, euclidean.py:84-115, complex `log psi`. -/
noncomputable def standardC (mode : Mode) (f : (Fin n → ℝ) → ℂ) (x : Fin n → ℝ) : ℂ :=
  let l := linearizeC (gradC f) x
  kineticFormula (diagonalSum mode l.2) (∑ i, l.1 i ^ 2)

/-- `EuclideanKinetic._evaluate_forward_laplacian`, euclidean.py:117-135, from the Jacobian and Laplacian returned by
`forward_laplacian` (for the transform itself see C44 and C45). -/
noncomputable def forward {K κ : Type} [DivisionRing K] [Fintype κ] (jac : κ → K) (lap : K) : K := kineticFormula lap (∑ k, jac k ^ 2)

/-! ### On the sphere -/

open Hall

/-- Position of the electrons: `electrons[..., 0]` is theta, `electrons[..., 1]` phi. -/
abbrev Conf (n : ℕ) := Fin n → Angles

/-- The coordinate direction theta of electron `i`. -/
def eTheta (i : Fin n) : Conf n := Pi.single i (1, 0)

/-- The coordinate direction phi of electron `i`. -/
def ePhi (i : Fin n) : Conf n := Pi.single i (0, 1)

/-- The two coordinate directions of electron `i`: `[..., 0]` and `[..., 1]`. -/
def eDir (i : Fin n) (c : Fin 2) : Conf n := if c = 0 then eTheta i else ePhi i

/-- `jax.hessian(with_real(f)) + 1j * jax.hessian(with_imag(f))`, spherical.py:166-169, the entry of two directions. -/
noncomputable def hess (f : Conf n → ℂ) (x : Conf n) (d d' : Conf n) : ℂ :=
  (pd d' (fun y => pd d (fun z => (f z).re) y) x : ℂ) + Complex.I * (pd d' (fun y => pd d (fun z => (f z).im) y) x : ℂ)

/-- The kinetic energy from the first derivatives and the coordinate Laplacian
(`lap = Σ ∂θ² log psi + ∂φ² log psi / sin² theta`), spherical.py:158-186 and 251-266. -/
noncomputable def sphereFormula (Q r : ℝ) (x : Conf n) (gTheta gPhi : Fin n → ℂ) (lap : ℂ) : ℂ :=
  let theta := fun i => (x i).1
  let squareGrad := ∑ i, (gTheta i ^ 2 + gPhi i ^ 2 / (Real.sin (theta i) : ℂ) ^ 2)
  let gradGrad := (∑ i, gTheta i / (Real.tan (theta i) : ℂ)) + lap
  let magnetic := ∑ i, ((Q / Real.tan (theta i) : ℂ) ^ 2
    + 2 * Complex.I * Q * (Real.cos (theta i) : ℂ) / (Real.sin (theta i) : ℂ) ^ 2 * gPhi i)
  (-gradGrad - squareGrad + magnetic) / 2 / (r : ℂ) ^ 2

/-- `energy:kinetic` of `SphericalKinetic._evaluate_hessian`, spherical.py:141-186 (`r` is `radius` or `sqrt(Q)`). -/
noncomputable def sphereHessian (Q r : ℝ) (f : Conf n → ℂ) (x : Conf n) : ℂ :=
  sphereFormula Q r x (fun i => pdC (eTheta i) f x) (fun i => pdC (ePhi i) f x)
    (∑ i, (hess f x (eTheta i) (eTheta i) + hess f x (ePhi i) (ePhi i) / (Real.sin (x i).1 : ℂ) ^ 2))

/-- `fwdlap_weights`, spherical.py:240: 1 for theta and `1 / sin(theta)` for phi. -/
noncomputable def sphereWeights (x : Conf n) (i : Fin n) (c : Fin 2) : ℝ := if c = 0 then 1 else 1 / Real.sin (x i).1

/-- `energy:kinetic` of `SphericalKinetic._evaluate_forward_laplacian`, spherical.py:222-266, from the Jacobian and Laplacian
returned by `forward_laplacian` on the weighted input. -/
noncomputable def sphereForward (Q r : ℝ) (x : Conf n) (jac : Fin n → Fin 2 → ℂ) (lap : ℂ) : ℂ :=
  let g := fun i c => jac i c / (sphereWeights x i c : ℂ)
  sphereFormula Q r x (fun i => g i 0) (fun i => g i 1) lap

/-! ### Angular momentum -/

/-- `r_hat`, spherical.py:60-62 and 191. -/
noncomputable def rHat (e : Angles) : Fin 3 → ℝ :=
  ![Real.sin e.1 * Real.cos e.2, Real.sin e.1 * Real.sin e.2, Real.cos e.1]

/-- `phi_hat`, spherical.py:63 and 192. -/
noncomputable def phiHat (e : Angles) : Fin 3 → ℝ := ![-Real.sin e.2, Real.cos e.2, 0]

/-- `theta_hat_prime`, spherical.py:64-67 and 193-199. -/
noncomputable def thetaHat (e : Angles) : Fin 3 → ℝ := ![Real.cos e.2 / Real.tan e.1, Real.sin e.2 / Real.tan e.1, -1]

/-- One electron's share of the magnetic term, `theta_hat_prime * cos(theta) + r_hat` (times `Q`), spherical.py:72-74, 205. -/
noncomputable def magHat (e : Angles) (k : Fin 3) : ℝ := thetaHat e k * Real.cos e.1 + rHat e k

/-- Statistics of one walker. -/
structure Stats where
  z : ℝ
  zSquare : ℝ
  square : ℝ

/-- Angular momentum in the Hessian mode, spherical.py:188-220. -/
noncomputable def angularHessian (Q : ℝ) (f : Conf n → ℂ) (x : Conf n) : Stats :=
  let gTheta := fun i => pdC (eTheta i) f x
  let gPhi := fun i => pdC (ePhi i) f x
  let hTT := fun i j => hess f x (eTheta i) (eTheta j) + gTheta i * gTheta j
  let hTP := fun i j => hess f x (eTheta i) (ePhi j) + gTheta i * gPhi j
  let hPP := fun i j => hess f x (ePhi i) (ePhi j) + gPhi i * gPhi j
  let mag := fun (i : Fin n) (k : Fin 3) => Q * magHat (x i) k
  let square : ℂ := (∑ k : Fin 3, ∑ i, ∑ j,
      (2 * (phiHat (x i) k : ℂ) * thetaHat (x j) k * hTP i j
        - (phiHat (x i) k : ℂ) * phiHat (x j) k * hTT i j
        - (thetaHat (x i) k : ℂ) * thetaHat (x j) k * hPP i j
        - 2 * Complex.I * (mag j k : ℂ) * ((phiHat (x i) k : ℂ) * gTheta i - (thetaHat (x i) k : ℂ) * gPhi i)
        + (mag i k : ℂ) * mag j k))
    - ∑ i, gTheta i / (Real.tan (x i).1 : ℂ)
  ⟨(∑ i, gPhi i).im, -(∑ i, ∑ j, hPP i j).re, square.re⟩

/-- The differential term of `_angular_momentum_operator(f, Q)`, spherical.py:51-71, component `k`. -/
noncomputable def diffTerm (f : Conf n → ℂ) (k : Fin 3) (x : Conf n) : ℂ :=
  ∑ i, -Complex.I * ((phiHat (x i) k : ℂ) * pdC (eTheta i) f x - (thetaHat (x i) k : ℂ) * pdC (ePhi i) f x)

/-- The magnetic term of `_angular_momentum_operator(f, Q)`, spherical.py:72-74. -/
noncomputable def magTerm (Q : ℝ) (k : Fin 3) (x : Conf n) : ℂ := Q * ∑ i, (magHat (x i) k : ℂ)

/-- Angular momentum in the forward-Laplacian mode: `_angular_momentum_square`, spherical.py:79-110.  The `k`-th diagonal entry of
the second application is the operator's component `k` on the `k`-th component of the first. -/
noncomputable def angularForward (Q : ℝ) (f : Conf n → ℂ) (x : Conf n) : Stats :=
  let l := fun (k : Fin 3) (y : Conf n) => diffTerm f k y + magTerm Q k y
  let l2 := fun k => diffTerm (l k) k x + l k x ^ 2
  ⟨(l 2 x).re, (l2 2).re, (∑ k, l2 k).re⟩

end Jaqmc.Kinetic
