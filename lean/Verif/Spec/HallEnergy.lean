import Verif.Spec.Kinetic
import Verif.Spec.PairCorrelation
/-! The penalised Hamiltonian on the Haldane sphere (C98). -/
namespace Jaqmc.HallEnergy.Spec
open Jaqmc.Kinetic.Spec Jaqmc.HallStats.Spec
open scoped BigOperators

variable {n : ℕ}

/-- The Coulomb energy of electrons on a sphere of radius `r`: every pair once, with the chord distance. -/
noncomputable def coulomb (r strength : ℝ) (x : Fin n → ℝ × ℝ) : ℝ :=
  ∑ p ∈ Finset.univ.filter (fun p : Fin n × Fin n => p.1 < p.2), strength / dist (r • point (x p.1)) (r • point (x p.2))

/-- `Hψ`, `H = Σ_i |Λ_i|² / (2 r²) + V`. -/
noncomputable def H (Q r strength : ℝ) (ψ : (Fin n → ℝ × ℝ) → ℂ) (x : Fin n → ℝ × ℝ) : ℂ :=
  1 / (2 * (r : ℂ) ^ 2) * ∑ i, lambdaSq Q i ψ x + (coulomb r strength x : ℂ) * ψ x

/-- `(L_z - c) ψ`. -/
noncomputable def lzShift (Q c : ℝ) (ψ : (Fin n → ℝ × ℝ) → ℂ) (x : Fin n → ℝ × ℝ) : ℂ := angular Q 2 ψ x - c * ψ x

/-- `λ_z (L_z - c)² ψ + λ_2 L² ψ`. -/
noncomputable def penalty (Q c lz l2 : ℝ) (ψ : (Fin n → ℝ × ℝ) → ℂ) (x : Fin n → ℝ × ℝ) : ℂ :=
  lz * lzShift Q c (lzShift Q c ψ) x + l2 * ∑ k, angular Q k (angular Q k ψ) x

end Jaqmc.HallEnergy.Spec
