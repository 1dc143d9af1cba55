import Mathlib.Analysis.Calculus.ParametricIntegral
import Mathlib.Analysis.InnerProductSpace.Basic
import Verif.Spec.Stats
/-!
What the gradients of the penalties of `jaqmc_legacy` estimate (C106, C107): expressions in averages, to be read with sample means over
the walkers or with expectations over `ψ²`.
-/
namespace Jaqmc.LegacyLoss.Spec
open MeasureTheory

variable {X : Type}

/-- The sample mean over walkers. -/
noncomputable def sampleMean (xs : List X) (f : X → ℝ) : ℝ := Jaqmc.Stats.Spec.globalMean (xs.map f)

/-- The covariance of two functions for a way of averaging. -/
def covOf (avg : (X → ℝ) → ℝ) (f g : X → ℝ) : ℝ := avg (fun x => f x * g x) - avg f * avg g

/-- The gradient of the spin penalty for a way of averaging: `P` the local values, `dP` their derivatives, `g` the log-derivative. -/
def penaltyGradient (w : ℝ) (avg : (X → ℝ) → ℝ) (P g dP : X → ℝ) : ℝ := w * (2 * covOf avg P g + avg dP) * avg P

/-- The gradient of the overlap penalty with one target, for ways of averaging over the target's walkers and the current ones: `ψ` the
current, `φ` the target wavefunction, `g` the log-derivative. -/
noncomputable def overlapGradient (w : ℝ) (avgTarget avg : (X → ℝ) → ℝ) (ψ φ g : X → ℝ) : ℝ :=
  w * avgTarget (fun x => ψ x / φ x) * covOf avg (fun x => φ x / ψ x) g

section
variable [MeasurableSpace X] (μ : Measure X)

/-- The expectation over the density `ψ²`. -/
noncomputable def expect (ψ f : X → ℝ) : ℝ := (∫ x, ψ x ^ 2 * f x ∂μ) / ∫ x, ψ x ^ 2 ∂μ

/-- `f` may be differentiated at `θ` under the integral sign, with derivative `f'`. -/
structure DiffUnder (f f' : ℝ → X → ℝ) (θ : ℝ) : Prop where
  meas : ∀ᶠ t in nhds θ, AEStronglyMeasurable (f t) μ
  int : Integrable (f θ) μ
  meas' : AEStronglyMeasurable (f' θ) μ
  dom : ∃ bound : X → ℝ, Integrable bound μ ∧ ∃ ε > 0, ∀ᵐ x ∂μ, ∀ t ∈ Metric.ball θ ε,
    ‖f' t x‖ ≤ bound x ∧ HasDerivAt (fun s => f s x) (f' t x) t

/-- The squared normalised overlap of two wavefunctions. -/
noncomputable def overlapSq (ψ φ : X → ℝ) : ℝ := (∫ x, ψ x * φ x ∂μ) ^ 2 / ((∫ x, ψ x ^ 2 ∂μ) * ∫ x, φ x ^ 2 ∂μ)

end
end Jaqmc.LegacyLoss.Spec
