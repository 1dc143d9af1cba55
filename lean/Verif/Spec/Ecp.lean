import Mathlib.MeasureTheory.Constructions.HaarToSphere
import Mathlib.MeasureTheory.Measure.Haar.InnerProductSpace
import Mathlib.Algebra.MvPolynomial.Degrees
import Mathlib.MeasureTheory.Integral.IntervalIntegral.Basic
import Verif.Model.Ecp
import Verif.Spec.Geometry
/-!
Specifications for the effective core potential (C71-C73): integrals over the unit sphere with Mathlib's surface measure.
-/
namespace Jaqmc.Ecp.Spec
open MeasureTheory Jaqmc.Geometry

/-- The space with the Euclidean norm. -/
abbrev E3 := EuclideanSpace ℝ (Fin 3)

/-- The integral of `f` over the unit sphere of space with respect to the surface measure (total mass `4π`). -/
noncomputable def sphereIntegral (f : Vec 3 → ℂ) : ℂ :=
  ∫ u : Metric.sphere (0 : E3) 1, f (fun k => (u : E3) k) ∂(volume : Measure E3).toSphere

/-- `f` agrees on the unit sphere with a polynomial of total degree at most `d`. -/
def PolynomialOnSphere (d : ℕ) (f : Vec 3 → ℂ) : Prop :=
  ∃ p : MvPolynomial (Fin 3) ℂ, p.totalDegree ≤ d ∧
    ∀ u : Vec 3, ∑ k, u k ^ 2 = 1 → f u = MvPolynomial.eval (fun k => (u k : ℂ)) p

/-- The documented degrees: `octahedron_n` and `icosahedron_n` integrate polynomials up to this degree. -/
def degree : String → ℕ → Option ℕ
  | "octahedron", 6 => some 3
  | "octahedron", 18 => some 5
  | "octahedron", 26 => some 7
  | "octahedron", 50 => some 11
  | "icosahedron", 12 => some 5
  | "icosahedron", 32 => some 9
  | _, _ => none

/-- Legendre polynomials by Bonnet's recursion `(l+1) P_{l+1} = (2l+1) x P_l - l P_{l-1}`. -/
noncomputable def P : ℕ → ℝ → ℝ
  | 0, _ => 1
  | 1, x => x
  | l + 2, x => ((2 * l + 3) * x * P (l + 1) x - (l + 1) * P l x) / (l + 2)

/-- The value of a wavefunction reported as a phase and the logarithm of the modulus. -/
noncomputable def value (o : ℂ × ℝ) : ℂ := o.1 * Complex.exp (o.2 : ℂ)

/-- A radial potential in the notation of the documentation: `Σ_k c_k r^{n_k - 2} exp(-α_k r²)`, the groups of pairs
`(α, c)` being indexed by `n`. -/
noncomputable def radial (groups : List (List (ℝ × ℝ))) (r : ℝ) : ℝ :=
  ∑ k : Fin groups.length, ((groups.get k).map fun ac => ac.2 * r ^ ((k : ℤ) - 2) * Real.exp (-ac.1 * r ^ 2)).sum

/-- The projection of the wavefunction on angular momentum `l` around `atom`, seen from electron `e`:
`(2l+1)/(4π) ∫ P_l(r̂·u) ψ(…, atom + |r| u, …)/ψ(r) du`. -/
noncomputable def projection {n : ℕ} (ψ : (Fin n → Vec 3) → ℂ) (r : Fin n → Vec 3) (e : Fin n) (atom : Vec 3) (l : ℕ) : ℂ :=
  let d := Geometry.Spec.length (fun k => r e k - atom k)
  (2 * l + 1) / (4 * Real.pi) * sphereIntegral fun u =>
    (P l (∑ k, u k * ((r e k - atom k) / d)) : ℂ) * (ψ (Function.update r e (fun k => atom k + d * u k)) / ψ r)

/-- Twisted boundary conditions: moving one electron by the lattice vector `m` multiplies the wavefunction by
`exp(2πi m·t)`. -/
def Twisted {n : ℕ} (L : Matrix (Fin 3) (Fin 3) ℝ) (t : Vec 3) (ψ : (Fin n → Vec 3) → ℂ) : Prop :=
  ∀ (r : Fin n → Vec 3) (e : Fin n) (m : Fin 3 → ℤ),
    ψ (Function.update r e (fun k => r e k + Geometry.Spec.translation L m k)) =
      Complex.exp (2 * Real.pi * Complex.I * ∑ k, (m k : ℂ) * (t k : ℂ)) * ψ r

/-- The wavefunction satisfies the boundary conditions given to the estimator: none for a molecule, those of the lattice and
the twist (zero if absent) for a crystal. -/
def Satisfies {n : ℕ} (b : Boundary) (ψ : (Fin n → Vec 3) → ℂ) : Prop :=
  ∀ L, b.lattice = some L → IsUnit L.det ∧ Twisted L (b.twist.getD 0) ψ

/-- The radial potential of an element for angular momentum `l` (`-1` is the local one); zero if the tables have none. -/
noncomputable def potential (p : PyscfEcp) (l : ℤ) (r : ℝ) : ℝ :=
  match p.channels.lookup l with
  | some groups => radial groups r
  | none => 0

end Jaqmc.Ecp.Spec
