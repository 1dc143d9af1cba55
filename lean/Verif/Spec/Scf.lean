import Verif.Model.Scf
import Verif.Spec.Wavefunction
import Verif.Spec.Geometry
import Mathlib.Topology.Algebra.InfiniteSum.Basic
import Mathlib.Analysis.Normed.Group.InfiniteSum
/-! What a Slater determinant, a Bloch function and the occupied orbitals of a mean-field calculation are. -/
namespace Jaqmc.Scf.Spec
open Geometry

/-- The determinant matrix of `nu` spin-up orbitals `φ` and `nd` spin-down orbitals `ψ` at `nu + nd` electrons, the first
`nu` of which are spin up: row `i` is the electron, column `j` the spin orbital; an orbital vanishes on the electrons of
the other spin. -/
def slaterMatrix {K : Type} [Zero K] {nu nd : ℕ} (φ : Fin nu → Vec 3 → K) (ψ : Fin nd → Vec 3 → K)
    (r : Fin (nu + nd) → Vec 3) : Matrix (Fin (nu + nd)) (Fin (nu + nd)) K :=
  Matrix.of fun i j =>
    if i.val < nu then (if h : j.val < nu then φ ⟨j, h⟩ (r i) else 0)
    else (if h : j.val < nu then 0 else ψ ⟨j - nu, by omega⟩ (r i))

/-- The electrons as the array the code receives. -/
def walker {n : ℕ} (r : Fin n → Vec 3) (e : ℕ) : Vec 3 := if h : e < n then r ⟨e, h⟩ else fun _ => 0

/-- `f` is a Bloch function of wave vector `k` on the lattice `L`. -/
def Bloch (L : Matrix (Fin 3) (Fin 3) ℝ) (k : Vec 3) (f : Vec 3 → ℂ) : Prop :=
  ∀ (r : Vec 3) (m : Fin 3 → ℤ), f (fun c => r c + Geometry.Spec.translation L m c) =
    Complex.exp (Complex.I * ((∑ c, k c * Geometry.Spec.translation L m c : ℝ) : ℂ)) * f r

/-- The Bloch sum of a localised orbital over the whole lattice. -/
noncomputable def latticeSum (L : Matrix (Fin 3) (Fin 3) ℝ) (chi : Vec 3 → ℝ) (k r : Vec 3) : ℂ :=
  ∑' m : Fin 3 → ℤ, Complex.exp (Complex.I * ((∑ c, k c * Geometry.Spec.translation L m c : ℝ) : ℂ))
    * ((chi (fun c => r c - Geometry.Spec.translation L m c) : ℝ) : ℂ)

/-- The occupied orbitals of a spin: k-point index and coefficients, k-point by k-point. -/
def orbitalList {nk nao : ℕ} (coeffs : Fin nk → List (Fin nao → ℂ)) : List (Fin nk × (Fin nao → ℂ)) :=
  (List.finRange nk).flatMap fun k => (coeffs k).map fun c => (k, c)

/-- The spin-up and spin-down orbitals of a calculation: a restricted one fills an orbital with a spin-up electron if its
occupation is above 0.9 and with a spin-down electron as well if it is above 1.1; an unrestricted one has one occupation
per spin and the threshold 0.9. -/
noncomputable def occupiedList {nk nao : ℕ} : MeanField nk nao → List (Fin nk × (Fin nao → ℂ)) × List (Fin nk × (Fin nao → ℂ))
  | .krhf occ coeff =>
    (orbitalList fun k => pick 0.9 (occ k) (coeff k), orbitalList fun k => pick 1.1 (occ k) (coeff k))
  | .kuhf occA occB coeffA coeffB =>
    (orbitalList fun k => pick 0.9 (occA k) (coeffA k), orbitalList fun k => pick 0.9 (occB k) (coeffB k))
where
  /-- The columns with occupation above the threshold. -/
  pick (t : ℝ) : List ℝ → List (Fin nao → ℂ) → List (Fin nao → ℂ)
    | o :: os, c :: cs => open Classical in if t < o then c :: pick t os cs else pick t os cs
    | _, _ => []

/-- The crystal orbital with coefficients `c` at k-point `k`: the sum of the atomic Bloch orbitals `ao`. -/
noncomputable def crystal {nk nao : ℕ} (ao : Fin nk → Vec 3 → Fin nao → ℂ) (p : Fin nk × (Fin nao → ℂ)) (r : Vec 3) : ℂ :=
  ∑ a, p.2 a * ao p.1 r a

end Jaqmc.Scf.Spec
