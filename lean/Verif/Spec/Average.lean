import Verif.Spec.EnergyGradient
import Mathlib.Probability.Independence.Basic
import Mathlib.MeasureTheory.Measure.Lebesgue.Basic
/-!
What C135 needs to say: the generator as a source of independent draws, proposals that are as likely one way as the other, and the walkers that
start in the distribution of the wavefunction.
-/
namespace Jaqmc.Average.Spec
open MeasureTheory ProbabilityTheory

variable {V N Ω Key : Type} [MeasurableSpace V] [MeasurableSpace N] [MeasurableSpace Ω]

/-- A move, driven by noise of law `ν`, that is as likely to go from one place to another as back, with respect to the volume `μ`. -/
def Reversible (μ : Measure V) (ν : Measure N) (move : N → V → V) : Prop :=
  ∀ f : V × V → ENNReal, Measurable f → ∫⁻ x, ∫⁻ z, f (x, move z x) ∂ν ∂μ = ∫⁻ x, ∫⁻ z, f (move z x, x) ∂ν ∂μ

/-- The draws one walker gets at each key are independent of each other, the noise has law `ν` and the uniform numbers are uniform on `[0, 1)`. -/
structure Independent (P : Measure Ω) (ν : Measure N) (noise : Key → Ω → N) (uniform : Key → Ω → ℝ) : Prop where
  measurable : ∀ k, Measurable fun ω => (noise k ω, uniform k ω)
  indep : iIndepFun (fun k ω => (noise k ω, uniform k ω)) P
  noise_law : ∀ k, P.map (noise k) = ν
  uniform_law : ∀ k, P.map (uniform k) = volume.restrict (Set.Ico (0 : ℝ) 1)
  range : ∀ k ω, uniform k ω ∈ Set.Ico (0 : ℝ) 1

/-- A walker's starting place: distributed by `π`, and chosen independently of all the later draws. -/
structure StartsIn (P : Measure Ω) (π : Measure V) (x₀ : Ω → V) (noise : Key → Ω → N) (uniform : Key → Ω → ℝ) : Prop where
  measurable : Measurable x₀
  law : P.map x₀ = π
  indep : IndepFun x₀ (fun ω k => (noise k ω, uniform k ω)) P

/-- The key the loop of a sampling step holds after `j` updates. -/
def loopKey (split3 : Key → Key × Key × Key) (key : Key) : ℕ → Key
  | 0 => key
  | j + 1 => (split3 (loopKey split3 key j)).1

/-- The keys of update `j`: for its proposal, and for its acceptance test. -/
def drawKeys (split3 : Key → Key × Key × Key) (key : Key) (j : ℕ) : Key × Key := (split3 (loopKey split3 key j)).2

/-- The keys one device draws from in `T` sampling steps of `steps` updates. -/
def keysUsed (split3 : Key → Key × Key × Key) (keys : ℕ → Key) (steps T : ℕ) : List Key :=
  (List.range T).flatMap fun t => (List.range steps).flatMap fun j =>
    [(drawKeys split3 (keys t) j).1, (drawKeys split3 (keys t) j).2]

end Jaqmc.Average.Spec
