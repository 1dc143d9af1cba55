import Verif.Spec.Wavefunction
import Mathlib.Analysis.SpecialFunctions.Trigonometric.Basic
/-!
What it means for a wavefunction of electrons on the sphere to carry a given number of flux quanta.  An electron is a pair
`(theta, phi)`.  With the monopole at the centre and the gauge that is regular away from both poles, the pole `theta = 0`
is one point whatever `phi`, and the two values of the wavefunction there differ by the gauge transformation
`exp(i k δ / 2)`; at the other pole the phase is opposite; and a full turn `φ → φ + 2π` brings the electron back to the
same point with the phase `(-1)^k`.  The difference between the two poles, `exp(i k δ)`, winds `k` times: this is the
flux (Dirac quantisation).
-/
namespace Jaqmc.Hall.Spec

/-- Change the azimuth of electron `i` by `δ`. -/
def turn {n : ℕ} (i : Fin n) (δ : ℝ) (e : Fin n → ℝ × ℝ) : Fin n → ℝ × ℝ :=
  fun j => if j = i then ((e j).1, (e j).2 + δ) else e j

/-- The wavefunction `ψ` (its value, `none` for NaN) carries `k` flux quanta, on the configurations `D`. -/
structure HasFlux {n : ℕ} (D : (Fin n → ℝ × ℝ) → Prop) (k : ℤ) (ψ : (Fin n → ℝ × ℝ) → Option ℂ) : Prop where
  north : ∀ e, D e → ∀ i, (e i).1 = 0 → ∀ δ : ℝ, ψ (turn i δ e) = (ψ e).map (fun z => Complex.exp (Complex.I * k * δ / 2) * z)
  south : ∀ e, D e → ∀ i, (e i).1 = Real.pi → ∀ δ : ℝ, ψ (turn i δ e) = (ψ e).map (fun z => Complex.exp (-(Complex.I * k * δ / 2)) * z)
  period : ∀ e, D e → ∀ i, ψ (turn i (2 * Real.pi) e) = (ψ e).map (fun z => (-1) ^ k.natAbs * z)

end Jaqmc.Hall.Spec
