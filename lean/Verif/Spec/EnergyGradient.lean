import Mathlib.MeasureTheory.Function.L2Space
import Mathlib.MeasureTheory.Measure.WithDensity
import Mathlib.LinearAlgebra.LinearPMap
/-!
What the energy gradient has to be (C94): the derivative of the variational energy of a family of wavefunctions, for a
symmetric operator on the square-integrable functions of the configuration.
-/
namespace Jaqmc.LossGrad.Spec
open MeasureTheory

variable {X : Type} [MeasurableSpace X] {μ : Measure X}

/-- Square-integrable functions of the configuration. -/
noncomputable abbrev L2C (μ : Measure X) := Lp ℂ 2 μ

/-- `H` (with its domain) is symmetric. -/
def Symmetric (H : L2C μ →ₗ.[ℂ] L2C μ) : Prop :=
  ∀ φ χ : H.domain, inner ℂ (H φ) (χ : L2C μ) = inner ℂ (φ : L2C μ) (H χ)

/-- The variational energy `⟨ψ, Hψ⟩ / ⟨ψ, ψ⟩`. -/
noncomputable def energy (H : L2C μ →ₗ.[ℂ] L2C μ) (ψ : H.domain) : ℝ :=
  (inner ℂ (ψ : L2C μ) (H ψ)).re / (inner ℂ (ψ : L2C μ) (ψ : L2C μ)).re

/-- The distribution the walkers are sampled from: density `|ψ|²`, normalised. -/
noncomputable def walkerLaw (μ : Measure X) (ψ : X → ℂ) : Measure X :=
  μ.withDensity fun x => ENNReal.ofReal (‖ψ x‖ ^ 2 / ∫ y, ‖ψ y‖ ^ 2 ∂μ)

/-- `e` is the local energy of `ψ`: `Hψ = e ψ` pointwise. -/
def IsLocalEnergy (H : L2C μ →ₗ.[ℂ] L2C μ) (ψ : H.domain) (e : X → ℂ) : Prop :=
  ∀ᵐ x ∂μ, (H ψ : L2C μ) x = e x * (ψ : L2C μ) x

/-- A family of wavefunctions in one parameter, with values `Ψ t x`, differentiable in the mean at `θ`, its energy density continuous
in the mean, with pointwise log-derivative `g` there. -/
structure Family (H : L2C μ →ₗ.[ℂ] L2C μ) (ψ : ℝ → H.domain) (Ψ : ℝ → X → ℂ) (θ : ℝ) (g : X → ℂ) : Prop where
  values : ∀ t, ∀ᵐ x ∂μ, (ψ t : L2C μ) x = Ψ t x
  diff : DifferentiableAt ℝ (fun t => (ψ t : L2C μ)) θ
  cont : ContinuousAt (fun t => H (ψ t)) θ
  logDeriv : ∀ᵐ x ∂μ, HasDerivAt (fun t => Ψ t x) (g x * Ψ θ x) θ
  ne : (ψ θ : L2C μ) ≠ 0

end Jaqmc.LossGrad.Spec
