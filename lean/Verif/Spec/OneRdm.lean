import Mathlib.MeasureTheory.Integral.Pi
import Mathlib.MeasureTheory.Integral.Bochner.Basic
import Mathlib.MeasureTheory.Measure.Lebesgue.Basic
import Mathlib.Analysis.SpecialFunctions.Trigonometric.Basic
import Mathlib.Analysis.SpecialFunctions.Sqrt
import Mathlib.Analysis.Complex.Trigonometric
/-! The one-body reduced density matrix on the Haldane sphere (C97). -/
namespace Jaqmc.HallStats.Spec
open MeasureTheory Set
open scoped BigOperators ComplexConjugate

/-- `sin θ dθ` on `[0, π]`. -/
noncomputable def polarM : Measure ℝ := (volume.restrict (Icc 0 Real.pi)).withDensity fun θ => ENNReal.ofReal (Real.sin θ)

/-- The area `sin θ dθ dφ` of the unit sphere, in angles. -/
noncomputable def area : Measure (ℝ × ℝ) := polarM.prod (volume.restrict (Icc (-Real.pi) Real.pi))

/-- The volume of the configurations of `n` electrons on the sphere. -/
noncomputable def areaN (n : ℕ) : Measure (Fin n → ℝ × ℝ) := Measure.pi fun _ => area

/-- The value of the wavefunction from its logarithm; `none` is the logarithm of zero. -/
noncomputable def amplitude : Option ℂ → ℂ
  | some z => Complex.exp z
  | none => 0

/-- `⟨ψ, ψ⟩`. -/
noncomputable def normSq {n : ℕ} (ψ : (Fin n → ℝ × ℝ) → ℂ) : ℝ := ∫ R, ‖ψ R‖ ^ 2 ∂areaN n

/-- A measurable, bounded wavefunction that is not zero almost everywhere. -/
structure Regular {n : ℕ} (ψ : (Fin n → ℝ × ℝ) → ℂ) : Prop where
  meas : Measurable ψ
  bound : ∃ C, ∀ R, ‖ψ R‖ ≤ C
  pos : 0 < normSq ψ

/-- The law the walkers are drawn from: density `|ψ|² / ⟨ψ, ψ⟩`. -/
noncomputable def law {n : ℕ} (ψ : (Fin n → ℝ × ℝ) → ℂ) : Measure (Fin n → ℝ × ℝ) :=
  ENNReal.ofReal (normSq ψ)⁻¹ • (areaN n).withDensity fun R => ENNReal.ofReal (‖ψ R‖ ^ 2)

/-- The law of two independent draws, uniform in `[-1, 1]` and in `[-π, π]`. -/
noncomputable def draws : Measure (ℝ × ℝ) :=
  (ENNReal.ofReal (1 / 2) • volume.restrict (Icc (-1) 1)).prod (ENNReal.ofReal (1 / (2 * Real.pi)) • volume.restrict (Icc (-Real.pi) Real.pi))

/-- The monopole harmonic `Y_{QQm}`, `flux = 2Q`, `t = Q + m`: `± √((2Q+1)/4π · C(2Q, Q+m)) u^(Q+m) v^(Q-m)` with `u = cos(θ/2) e^{iφ/2}` and
`v = sin(θ/2) e^{-iφ/2}`. -/
noncomputable def Y (flux t : ℕ) (e : ℝ × ℝ) : ℂ :=
  (-1) ^ (flux - t) * (Real.sqrt ((flux + 1) / (4 * Real.pi) * flux.choose t) : ℂ)
    * (Real.cos (e.1 / 2) * Complex.exp (Complex.I * e.2 / 2)) ^ t * (Real.sin (e.1 / 2) * Complex.exp (-(Complex.I * e.2 / 2))) ^ (flux - t)

/-- The one-body reduced density matrix of `ψ` in the orbitals `φ`:
`ρ_ij = Σ_a ∫∫ φ_i(r_a) φ_j*(r') ψ*(R) ψ(R with r_a replaced by r') dR dr' / ⟨ψ, ψ⟩`. -/
noncomputable def rdm {n : ℕ} (φ : ℕ → ℝ × ℝ → ℂ) (ψ : (Fin n → ℝ × ℝ) → ℂ) (i j : ℕ) : ℂ :=
  (∑ a, ∫ R, ∫ r, φ i (R a) * conj (φ j r) * conj (ψ R) * ψ (Function.update R a r) ∂area ∂areaN n) / (normSq ψ : ℂ)

/-- `ψ` is, as a function of the position of each electron, in the span of the orbitals `Y` (the lowest Landau level). -/
def LowestLevel {n : ℕ} (flux : ℕ) (ψ : (Fin n → ℝ × ℝ) → ℂ) : Prop :=
  ∀ (R : Fin n → ℝ × ℝ) (a : Fin n), ∃ c : ℕ → ℂ, ∀ r, ψ (Function.update R a r) = ∑ t ∈ Finset.range (flux + 1), c t * Y flux t r

end Jaqmc.HallStats.Spec
