import Verif.Spec.Geometry
import Mathlib.Analysis.SpecialFunctions.Complex.Circle
/-! Specification for C34, C35 and C58: the Ewald formula for point charges `q` at `x` in a cell with lattice vectors
`L` (rows), splitting parameter `a`, cut-offs `gmax` and `nlat`. The minimum-image displacement `r i j` and the
complementary error function are parameters. -/
namespace Jaqmc.Ewald.Spec
open Jaqmc.Geometry Jaqmc.Geometry.Spec Matrix
open scoped Classical

variable {n : Nat}

/-- All integer vectors with entries of size at most `c`. -/
noncomputable def box (c : Nat) : Finset (Fin 3 → ℤ) := Fintype.piFinset (fun _ => Finset.Icc (-(c : ℤ)) c)

/-- The reciprocal vector with integer coefficients `g`: `G = 2π Σ_i g_i b_i`, the `b_i` being dual to the rows. -/
noncomputable def G (L : Matrix (Fin 3) (Fin 3) ℝ) (g : Fin 3 → ℤ) : Vec 3 :=
  fun k => 2 * Real.pi * ∑ i, (g i : ℝ) * L⁻¹ k i

/-- `W(G) = 4π / (Ω G²) exp(-G²/4a²)` for cell volume `omega`. -/
noncomputable def W (omega a : ℝ) (v : Vec 3) : ℝ :=
  4 * Real.pi / (omega * dot v v) * Real.exp (-(dot v v) / (4 * a ^ 2))

/-- `S(G) = Σ_j q_j exp(i G·x_j)`. -/
noncomputable def S (x : Fin n → Vec 3) (q : Fin n → ℝ) (v : Vec 3) : ℂ :=
  ∑ j, (q j : ℂ) * Complex.exp (Complex.I * (dot v (x j) : ℝ))

/-- The reciprocal part: half the sum over *all* nonzero `G` in the box whose weight is significant. -/
noncomputable def recip (L : Matrix (Fin 3) (Fin 3) ℝ) (omega a : ℝ) (gmax : Nat) (x : Fin n → Vec 3) (q : Fin n → ℝ) : ℝ :=
  1 / 2 * ∑ g ∈ (box gmax).filter (fun g => g ≠ 0 ∧ W omega a (G L g) > 1e-12), W omega a (G L g) * ‖S x q (G L g)‖ ^ 2

/-- The real-space part: half the sum over all ordered pairs and all images in the box, without the interaction of a
particle with itself in the central image. -/
noncomputable def real (erfc : ℝ → ℝ) (L : Matrix (Fin 3) (Fin 3) ℝ) (a : ℝ) (nlat : Nat) (r : Fin n → Fin n → Vec 3)
    (q : Fin n → ℝ) : ℝ :=
  1 / 2 * ∑ m ∈ box nlat, ∑ i, ∑ j, if m = 0 ∧ i = j then 0 else
    q i * q j * (erfc (a * length (fun k => r i j k + translation L m k)) / length (fun k => r i j k + translation L m k))

end Jaqmc.Ewald.Spec
