import Mathlib.MeasureTheory.Integral.IntervalIntegral.Basic
import Mathlib.MeasureTheory.Measure.Lebesgue.Basic
import Mathlib.Geometry.Euclidean.Angle.Unoriented.Basic
import Mathlib.Analysis.InnerProductSpace.PiL2
import Mathlib.Analysis.SpecialFunctions.Trigonometric.Basic
/-! The pair correlation function on the sphere (C96). -/
namespace Jaqmc.HallStats.Spec
open MeasureTheory Set

/-- The point of the unit sphere with angles `(θ, φ)`. -/
noncomputable def point (e : ℝ × ℝ) : EuclideanSpace ℝ (Fin 3) :=
  !₂[Real.sin e.1 * Real.cos e.2, Real.sin e.1 * Real.sin e.2, Real.cos e.1]

/-- The geodesic angle between two electrons. -/
noncomputable def geodesic (e f : ℝ × ℝ) : ℝ := InnerProductGeometry.angle (point e) (point f)

/-- Under the law `P` of the configurations the pair `i, j` has the correlation function `g`: the geodesic angle has density `g(θ) sin θ / 2`, so that `g = 1`
for two independent uniform electrons. -/
structure HasPairDensity {n : ℕ} (P : Measure (Fin n → ℝ × ℝ)) (i j : Fin n) (g : ℝ → ℝ) : Prop where
  meas : Measurable g
  nonneg : ∀ θ, 0 ≤ g θ
  integrable : IntegrableOn g (Icc 0 Real.pi)
  law : Measure.map (fun R => geodesic (R i) (R j)) P = (volume.restrict (Icc 0 Real.pi)).withDensity fun θ => ENNReal.ofReal (g θ * Real.sin θ / 2)

/-- The mean of `g` over the `k`-th of `bins` equal cells of `[0, π]`. -/
noncomputable def cellMean (bins k : ℕ) (g : ℝ → ℝ) : ℝ := (∫ θ in (k * (Real.pi / bins))..((k + 1) * (Real.pi / bins)), g θ) / (Real.pi / bins)

end Jaqmc.HallStats.Spec
