import Mathlib.Analysis.Calculus.Deriv.Basic
import Mathlib.Analysis.SpecialFunctions.Trigonometric.Basic
import Mathlib.Analysis.Complex.Basic
/-!
What the kinetic-energy estimators have to compute: differential operators applied to the wavefunction `ψ` itself (the code works
with `log ψ`).
-/
namespace Jaqmc.Kinetic.Spec
open scoped BigOperators

/-- The second partial derivative `∂²F/∂x_i²` at `x`. -/
noncomputable def second {n : ℕ} {K : Type} [NormedAddCommGroup K] [NormedSpace ℝ K] (i : Fin n) (F : (Fin n → ℝ) → K) (x : Fin n → ℝ) : K :=
  deriv (deriv fun t => F (Function.update x i t)) (x i)

/-- The Laplacian. -/
noncomputable def laplacian {n : ℕ} {K : Type} [NormedAddCommGroup K] [NormedSpace ℝ K] (F : (Fin n → ℝ) → K) (x : Fin n → ℝ) : K :=
  ∑ i, second i F x

/-! ### On the sphere: electron `i` is at `(theta, phi) = x i` -/

/-- `∂F/∂theta_i`. -/
noncomputable def dTheta {n : ℕ} (i : Fin n) (F : (Fin n → ℝ × ℝ) → ℂ) (x : Fin n → ℝ × ℝ) : ℂ :=
  deriv (fun t => F (Function.update x i (t, (x i).2))) (x i).1

/-- `∂F/∂phi_i`. -/
noncomputable def dPhi {n : ℕ} (i : Fin n) (F : (Fin n → ℝ × ℝ) → ℂ) (x : Fin n → ℝ × ℝ) : ℂ :=
  deriv (fun t => F (Function.update x i ((x i).1, t))) (x i).2

/-- The component of the kinetic momentum along phi, times `sin theta`: `i ∂φ + Q cos θ`. -/
noncomputable def piPhi {n : ℕ} (Q : ℝ) (i : Fin n) (F : (Fin n → ℝ × ℝ) → ℂ) (x : Fin n → ℝ × ℝ) : ℂ :=
  Complex.I * dPhi i F x + (Q * Real.cos (x i).1 : ℝ) * F x

/-- `|Λ_i|²` on a sphere with monopole strength `Q` (Jain, Composite Fermions, 3.10):
`-(1/sin θ) ∂θ sin θ ∂θ + (1/sin² θ) (i ∂φ + Q cos θ)²`. -/
noncomputable def lambdaSq {n : ℕ} (Q : ℝ) (i : Fin n) (F : (Fin n → ℝ × ℝ) → ℂ) (x : Fin n → ℝ × ℝ) : ℂ :=
  -(1 / (Real.sin (x i).1 : ℂ)) * dTheta i (fun y => (Real.sin (y i).1 : ℂ) * dTheta i F y) x
    + 1 / (Real.sin (x i).1 : ℂ) ^ 2 * piPhi Q i (piPhi Q i F) x

/-- The unit vectors and the operator of total angular momentum, component `k` of 0, 1, 2:
`L = Σ_i -i φ̂ ∂θ + i θ̂' ∂φ + Q (cos θ θ̂' + r̂)` with `θ̂' = (cos φ cot θ, sin φ cot θ, -1)`.
`cos θ θ̂' + r̂ = (cos φ, sin φ, 0) / sin θ`. -/
noncomputable def angular {n : ℕ} (Q : ℝ) (k : Fin 3) (F : (Fin n → ℝ × ℝ) → ℂ) (x : Fin n → ℝ × ℝ) : ℂ :=
  ∑ i, match k with
    | 0 => Complex.I * (Real.sin (x i).2 * dTheta i F x + Real.cos (x i).1 / Real.sin (x i).1 * Real.cos (x i).2 * dPhi i F x)
      + Q * (Real.cos (x i).2 / Real.sin (x i).1) * F x
    | 1 => Complex.I * (-Real.cos (x i).2 * dTheta i F x + Real.cos (x i).1 / Real.sin (x i).1 * Real.sin (x i).2 * dPhi i F x)
      + Q * (Real.sin (x i).2 / Real.sin (x i).1) * F x
    | 2 => -Complex.I * dPhi i F x

end Jaqmc.Kinetic.Spec
