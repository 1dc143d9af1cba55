import Verif.Spec.Ph
import Verif.Spec.Ecp
import Verif.Model.MolEnergy
/-!
What the local energy of a molecule has to be (C109): the Hamiltonian written out on the wavefunction itself.
-/
namespace Jaqmc.MolEnergy.Spec
open Jaqmc.Geometry
open Jaqmc.Ph.Spec (radius)

variable {n A : ℕ}

/-- The Coulomb energy of electrons at `r` and nuclei with charges `Z` at `R`: every pair once. -/
noncomputable def coulomb (r : Fin n → Vec 3) (R : Fin A → Vec 3) (Z : Fin A → ℝ) : ℝ :=
  ∑ p ∈ Finset.univ.filter (fun p : Fin n × Fin n => p.1 < p.2), 1 / radius (r p.1) (r p.2)
    - ∑ i, ∑ a, Z a / radius (r i) (R a)
    + ∑ p ∈ Finset.univ.filter (fun p : Fin A × Fin A => p.1 < p.2), Z p.1 * Z p.2 / radius (R p.1) (R p.2)

/-- No two particles are at the same point. -/
def Apart (r : Fin n → Vec 3) (R : Fin A → Vec 3) : Prop :=
  (∀ i j, i ≠ j → r i ≠ r j) ∧ (∀ i a, r i ≠ R a) ∧ ∀ a b, a ≠ b → R a ≠ R b

/-- How the electrons of an element's core are treated. -/
inductive Treatment
  | allElectron
  | effectiveCore (p : Ecp.PyscfEcp)
  | pseudoHamiltonian

/-- The treatment of element `sym` under the user's `pp` argument, as documented: nothing for elements not mentioned, the
pseudo-Hamiltonian for `"ph"`, otherwise the named potential of the library. -/
def treatment (load : String → String → Option Ecp.PyscfEcp) (pp : Option String) (sym : String) : Option Treatment :=
  match pp with
  | none => some .allElectron
  | some "ph" => some .pseudoHamiltonian
  | some name => (load name sym).map .effectiveCore

end Jaqmc.MolEnergy.Spec
