import Mathlib.Algebra.MvPolynomial.PDeriv
import Mathlib.RingTheory.MvPolynomial.Homogeneous
import Mathlib.Data.Real.Sqrt
import Mathlib.Analysis.SpecialFunctions.Trigonometric.Basic
import Mathlib.Analysis.SpecialFunctions.Exp
/-! Real solid harmonics and contracted Gaussian orbitals (C101), written down as polynomials in the Cartesian coordinates. -/
namespace Jaqmc.Gto.Spec
open MvPolynomial

/-- Polynomials in `x`, `y`, `z`. -/
abbrev Poly := MvPolynomial (Fin 3) ℝ

/-- The polynomial `r² = x² + y² + z²`. -/
noncomputable def rsq : Poly := X 0 ^ 2 + X 1 ^ 2 + X 2 ^ 2

/-- Real and imaginary part of `(x + i y)^m`. -/
noncomputable def azimuth : ℕ → Poly × Poly
  | 0 => (1, 0)
  | m + 1 => (X 0 * (azimuth m).1 - X 1 * (azimuth m).2, X 0 * (azimuth m).2 + X 1 * (azimuth m).1)

/-- The part of the solid harmonic that depends on `z` and `r²` only:
`Σ_k (-1)^k (2l-2k)! / (2^l k! (l-k)! (l-m-2k)!) z^(l-m-2k) r^(2k)`. -/
noncomputable def zonal (l m : ℕ) : Poly :=
  ∑ k ∈ Finset.range ((l - m) / 2 + 1),
    C ((-1) ^ k * ((2 * l - 2 * k).factorial : ℝ) / (2 ^ l * k.factorial * (l - k).factorial * (l - m - 2 * k).factorial))
      * X 2 ^ (l - m - 2 * k) * rsq ^ k

/-- The normalisation of the spherical harmonic `Y_lm`. -/
noncomputable def normalisation (l m : ℕ) : ℝ := Real.sqrt ((2 * l + 1) / (4 * Real.pi) * ((l - m).factorial / (l + m).factorial))

/-- The real solid harmonic of degree `l` and order `m`, `-l ≤ m ≤ l`: cosine type for `m > 0`, sine type for `m < 0`. -/
noncomputable def solid (l : ℕ) (m : ℤ) : Poly :=
  if m = 0 then C (normalisation l 0) * zonal l 0
  else C (Real.sqrt 2 * normalisation l m.natAbs) * (if 0 < m then (azimuth m.natAbs).1 else (azimuth m.natAbs).2) * zonal l m.natAbs

/-- The Laplace operator. -/
noncomputable def laplacian (p : Poly) : Poly := ∑ i, pderiv i (pderiv i p)

/-- The radial function of contraction `w`: `Σ_i w_i exp(-α_i r²)`, over the weights above the threshold `t`. -/
noncomputable def radial (t : ℝ) (prims : List (ℝ × List ℝ)) (w : ℕ) (r : Fin 3 → ℝ) : ℝ :=
  ((prims.filter fun p => decide (t < |p.2.getD w 0|)).map fun p => p.2.getD w 0 * Real.exp (-p.1 * ∑ c, r c ^ 2)).sum

/-- The orders of a shell in the sequence of PySCF: from `-l` to `l`, but `x, y, z` for p shells. -/
def order : ℕ → List ℤ
  | 0 => [0]
  | 1 => [1, -1, 0]
  | l => (List.range (2 * l + 1)).map fun i => (i : ℤ) - l

end Jaqmc.Gto.Spec
