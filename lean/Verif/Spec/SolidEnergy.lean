import Verif.Spec.MolEnergy
import Verif.Spec.Ewald
import Verif.Spec.Supercell
import Verif.Spec.Wavefunction
/-!
What the local energy of a crystal has to be (C112).
-/
namespace Jaqmc.SolidEnergy.Spec
open Jaqmc.Geometry Jaqmc.Geometry.Spec

variable {n : ℕ}

/-- The Laplacian over all electrons of a complex wavefunction. -/
noncomputable def laplacian (F : (Fin n → Fin 3 → ℝ) → ℂ) (x : Fin n → Fin 3 → ℝ) : ℂ :=
  ∑ i, ∑ k, deriv (deriv fun t => F (Function.update x i (Function.update (x i) k t))) (x i k)

/-- The number `exp(logpsi)`. -/
noncomputable def psi : WithBot ℂ → ℂ
  | ⊥ => 0
  | (z : ℂ) => Complex.exp z

/-- The simulation cell (lattice `L'`, atoms at `R i`, of element and charge `kind i`) is the same crystal as the primitive one (lattice `L`,
atoms at `r j`, `kind' j`): every atom of the one is, up to the periodicity of the simulation cell, exactly one atom of the other. -/
structure SameCrystal {A B : ℕ} {κ : Type} (L L' : Matrix (Fin 3) (Fin 3) ℝ) (r : Fin A → Vec 3) (kind : Fin A → κ) (R : Fin B → Vec 3)
    (kind' : Fin B → κ) : Prop where
  /-- every atom of the simulation cell is a primitive atom moved by a primitive lattice vector, of the same kind -/
  sound : ∀ i, ∃ j m, R i = (fun k => r j k + translation L m k) ∧ kind' i = kind j
  /-- every atom of the crystal is there, up to a vector of the simulation cell -/
  complete : ∀ j m, ∃ i, kind' i = kind j ∧ Image L' (fun k => r j k + translation L m k) (R i)
  /-- and only once, if the primitive cell has no atom twice -/
  distinct : (∀ j j', Image L (r j) (r j') → j = j') → ∀ i i', Image L' (R i) (R i') → i = i'

end Jaqmc.SolidEnergy.Spec
