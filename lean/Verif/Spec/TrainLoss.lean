import Verif.Spec.EnergyGradient
import Mathlib.MeasureTheory.Constructions.BorelSpace.Basic
/-!
What C144 needs to say: the local energies of a family of wavefunctions.
-/
namespace Jaqmc.Average.Spec
open MeasureTheory Jaqmc.LossGrad.Spec

variable {V Θ : Type} [MeasurableSpace V] [MeasurableSpace Θ] {μ : Measure V}

/-- Wavefunctions with values `Ψ τ x` and local energies `e τ x`, at most `E` in size. -/
structure LocalEnergies (H : L2C μ →ₗ.[ℂ] L2C μ) (ψ : Θ → H.domain) (Ψ : Θ → V → ℂ) (e : Θ → V → ℂ) (E : ℝ) : Prop where
  values : ∀ τ, ∀ᵐ x ∂μ, (ψ τ : L2C μ) x = Ψ τ x
  ne : ∀ τ, (ψ τ : L2C μ) ≠ 0
  energies : ∀ τ, IsLocalEnergy H (ψ τ) (e τ)
  measurable : Measurable fun q : Θ × V => e q.1 q.2
  bounded : ∀ τ x, ‖e τ x‖ ≤ E

end Jaqmc.Average.Spec
