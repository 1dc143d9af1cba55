import Mathlib.Analysis.Complex.Basic
import Mathlib.GroupTheory.Perm.Sign
/-!
Specification of the total spin operator (C74): many-electron functions of positions and spins, Pauli matrices, `S²`.
-/
namespace Jaqmc.SpinSquared.Spec

variable {X : Type} {N : ℕ}

/-- A function of the positions and the spins (`true` is up) of `N` electrons. -/
abbrev State (X : Type) (N : ℕ) := (Fin N → X) → (Fin N → Bool) → ℂ

/-- Antisymmetry under simultaneous relabelling of positions and spins. -/
def Antisymmetric (Φ : State X N) : Prop :=
  ∀ (π : Equiv.Perm (Fin N)) r s, Φ (r ∘ π) (s ∘ π) = (π.sign : ℤ) * Φ r s

/-- The Pauli matrices: the entry in row `a`, column `b`. -/
noncomputable def pauli : Fin 3 → Bool → Bool → ℂ
  | 0, true, false => 1
  | 0, false, true => 1
  | 1, true, false => -Complex.I
  | 1, false, true => Complex.I
  | 2, true, true => 1
  | 2, false, false => -1
  | _, _, _ => 0

/-- Component `a` of the spin of electron `i`: `σ_a / 2` on its spin variable. -/
noncomputable def spinOf (a : Fin 3) (i : Fin N) (Φ : State X N) : State X N :=
  fun r s => ∑ b : Bool, pauli a (s i) b / 2 * Φ r (Function.update s i b)

/-- Component `a` of the total spin. -/
noncomputable def total (a : Fin 3) (Φ : State X N) : State X N := fun r s => ∑ i, spinOf a i Φ r s

/-- `S² = S_x² + S_y² + S_z²`. -/
noncomputable def spinSquared (Φ : State X N) : State X N := fun r s => ∑ a : Fin 3, total a (total a Φ) r s

/-- The first `nu` electrons up, the others down. -/
def upFirst (nu nd : ℕ) : Fin (nu + nd) → Bool := fun i => decide ((i : ℕ) < nu)

end Jaqmc.SpinSquared.Spec
