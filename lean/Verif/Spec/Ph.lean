import Mathlib.Analysis.Calculus.Deriv.Basic
import Mathlib.Analysis.SpecialFunctions.Exp
import Mathlib.Analysis.Real.Sqrt
import Mathlib.Data.Fintype.BigOperators
/-!
What the pseudo-Hamiltonian estimator has to compute: differential operators on the wavefunction `ψ` itself.
-/
namespace Jaqmc.Ph.Spec
open scoped BigOperators

variable {n : ℕ} {K : Type} [NormedField K] [NormedAlgebra ℝ K]

/-- `∂F/∂x_{ik}`: coordinate `k` of electron `i`. -/
noncomputable def partial' (i : Fin n) (k : Fin 3) (F : (Fin n → Fin 3 → ℝ) → K) (x : Fin n → Fin 3 → ℝ) : K :=
  deriv (fun t => F (Function.update x i (Function.update (x i) k t))) (x i k)

/-- The Laplacian over all coordinates. -/
noncomputable def laplacian (F : (Fin n → Fin 3 → ℝ) → K) (x : Fin n → Fin 3 → ℝ) : K :=
  ∑ i, ∑ k, partial' i k (partial' i k F) x

/-- Component `k` of `(r_i - R) × ∇_i`, which is `i` times the angular momentum of electron `i` about `R` (in `Fin 3`, indices
are modulo 3). -/
noncomputable def rot (i : Fin n) (R : Fin 3 → ℝ) (k : Fin 3) (F : (Fin n → Fin 3 → ℝ) → K) (x : Fin n → Fin 3 → ℝ) : K :=
  (x i (k + 1) - R (k + 1)) • partial' i (k + 2) F x - (x i (k + 2) - R (k + 2)) • partial' i (k + 1) F x

/-- The squared angular momentum `L²` of electron `i` about `R`. -/
noncomputable def angularSq (i : Fin n) (R : Fin 3 → ℝ) (F : (Fin n → Fin 3 → ℝ) → K) (x : Fin n → Fin 3 → ℝ) : K :=
  -∑ k, rot i R k (rot i R k F) x

/-- The distance of two points. -/
noncomputable def radius (p R : Fin 3 → ℝ) : ℝ := Real.sqrt (∑ k, (p k - R k) ^ 2)

/-- The derivative part of a pseudo-Hamiltonian applied to `ψ`: `-½ Δψ + Σ_{i,a} v_{ia} L²_{ia} ψ`. -/
noncomputable def derivativePart {A : ℕ} (atoms : Fin A → Fin 3 → ℝ) (v : Fin n → Fin A → ℝ) (ψ : (Fin n → Fin 3 → ℝ) → K)
    (x : Fin n → Fin 3 → ℝ) : K :=
  -(1 / 2) * laplacian ψ x + ∑ i, ∑ a, v i a • angularSq i (atoms a) ψ x

/-- The quadratic form of the inverse mass tensor of an electron at `p`: `½ |u|² + Σ_a v_a (r_a² |u|² - (r_a · u)²)`. -/
noncomputable def massForm {A : ℕ} (p : Fin 3 → ℝ) (atoms : Fin A → Fin 3 → ℝ) (v : Fin A → ℝ) (u : Fin 3 → ℝ) : ℝ :=
  1 / 2 * (∑ k, u k ^ 2) + ∑ a, v a * (radius p (atoms a) ^ 2 * (∑ k, u k ^ 2) - (∑ k, (p k - atoms a k) * u k) ^ 2)

/-- `f` is `log|ψ|` around `x`. -/
def LogOf (f ψ : (Fin n → Fin 3 → ℝ) → ℝ) (x : Fin n → Fin 3 → ℝ) : Prop := ∀ᶠ y in nhds x, |ψ y| = Real.exp (f y)

end Jaqmc.Ph.Spec
