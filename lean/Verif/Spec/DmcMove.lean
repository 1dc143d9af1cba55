import Verif.Model.DmcMove
import Mathlib.MeasureTheory.Measure.WithDensity
import Mathlib.MeasureTheory.Measure.Prod
import Mathlib.MeasureTheory.Measure.Haar.InnerProductSpace
import Mathlib.MeasureTheory.Measure.Lebesgue.Basic
/-!
What the sampling property C91 speaks about: the distributions of the random draws.
-/
namespace Jaqmc.DmcMove
open MeasureTheory Set

/-- The uniform distribution on the unit interval (`jax.random.uniform`). -/
noncomputable def unifLaw : Measure ℝ := volume.restrict (Ioo 0 1)

/-- The uniform distribution on `(0, 2π)` (`jax.random.uniform(minval=0, maxval=2 * jnp.pi)`). -/
noncomputable def angleLaw : Measure ℝ :=
  ENNReal.ofReal (1 / (2 * Real.pi)) • volume.restrict (Ioo 0 (2 * Real.pi))

/-- The gamma distribution with shape three (`jax.random.gamma(a=3)`). -/
noncomputable def gammaLaw : Measure ℝ :=
  (volume.restrict (Ioi 0)).withDensity fun g => ENNReal.ofReal (g ^ 2 * Real.exp (-g) / 2)

/-- The standard normal distribution in three dimensions (`jax.random.normal(key, (3,))`). -/
noncomputable def normalLaw : Measure V :=
  volume.withDensity fun x => ENNReal.ofReal ((Real.sqrt (2 * Real.pi) ^ 3)⁻¹ *
    Real.exp (-(‖x‖ ^ 2 / 2)))

/-- The joint distribution of the independent draws `(u, xi, g, phi, t)` of one proposal. -/
noncomputable def drawLaw : Measure (ℝ × V × ℝ × ℝ × ℝ) :=
  unifLaw.prod (normalLaw.prod (gammaLaw.prod (angleLaw.prod unifLaw)))

/-- The draws as the model takes them. -/
def toDraw (d : ℝ × V × ℝ × ℝ × ℝ) : Draw := ⟨d.1, d.2.1, d.2.2.1, d.2.2.2.1, d.2.2.2.2⟩

end Jaqmc.DmcMove
