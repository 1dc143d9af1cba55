import Verif.Spec.EnergyGradient
import Mathlib.MeasureTheory.Constructions.BorelSpace.Basic
/-!
What C143 needs to say: the energy as a function of several parameters.
-/
namespace Jaqmc.Average.Spec
open MeasureTheory Jaqmc.LossGrad.Spec

variable {V : Type} [MeasurableSpace V] {μ : Measure V} {p : ℕ}

/-- The derivative of the energy by parameter `k`. -/
noncomputable def incline (H : L2C μ →ₗ.[ℂ] L2C μ) (ψ : (Fin p → ℝ) → H.domain) (θ : Fin p → ℝ) (k : Fin p) : ℝ :=
  deriv (fun t => energy H (ψ (Function.update θ k t))) (θ k)

/-- The squared length of the gradient of the energy. -/
noncomputable def steepness (H : L2C μ →ₗ.[ℂ] L2C μ) (ψ : (Fin p → ℝ) → H.domain) (θ : Fin p → ℝ) : ℝ := ∑ k, incline H ψ θ k ^ 2

/-- A wavefunction with parameters `θ`, values `Ψ θ x`, real log-derivatives `g θ k x`, at most `G`, and a local energy `e θ x`, at most `E` in size, the gradient of whose energy changes
at most `Λ` times as fast as the parameters: the energy lies below its parabolas of curvature `Λ`. -/
structure Landscape (H : L2C μ →ₗ.[ℂ] L2C μ) (ψ : (Fin p → ℝ) → H.domain) (Ψ : (Fin p → ℝ) → V → ℂ) (g : (Fin p → ℝ) → Fin p → V → ℂ) (e : (Fin p → ℝ) → V → ℂ)
    (G E Λ : ℝ) : Prop where
  families : ∀ θ k, Family H (fun t => ψ (Function.update θ k t)) (fun t => Ψ (Function.update θ k t)) (θ k) (g θ k)
  energies : ∀ θ, IsLocalEnergy H (ψ θ) (e θ)
  real : ∀ θ k x, (g θ k x).im = 0
  measurable_log : ∀ k, Measurable fun q : (Fin p → ℝ) × V => g q.1 k q.2
  measurable_energy : Measurable fun q : (Fin p → ℝ) × V => e q.1 q.2
  bound_log : ∀ θ k x, ‖g θ k x‖ ≤ G
  bound_energy : ∀ θ x, ‖e θ x‖ ≤ E
  smooth : ∀ θ θ', energy H (ψ θ') ≤ energy H (ψ θ) + ∑ k, incline H ψ θ k * (θ' k - θ k) + Λ / 2 * ∑ k, (θ' k - θ k) ^ 2

end Jaqmc.Average.Spec
