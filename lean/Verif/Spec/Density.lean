import Mathlib.Data.Real.Basic
import Mathlib.Data.Matrix.Basic
import Mathlib.Algebra.BigOperators.Fin
/-! What a density histogram has to count (C95). -/
namespace Jaqmc.Density.Spec
open scoped Classical

/-- `x` lies in cell `k` of the `bins` equal cells of `[lo, hi]`; the last cell contains its upper end. -/
def Cell (lo hi : ℝ) (bins k : ℕ) (x : ℝ) : Prop :=
  k < bins ∧ lo + k * ((hi - lo) / bins) ≤ x ∧ (x < lo + (k + 1) * ((hi - lo) / bins) ∨ (x = hi ∧ k + 1 = bins))

/-- The number of electrons, over all devices, steps and walkers, with property `p`. -/
noncomputable def countRun {X : Type} (run : List (List (List (List X)))) (p : X → Prop) : ℕ :=
  (run.flatten.flatten.flatten.filter fun x => decide (p x)).length

/-- `f` are the fractional coordinates of the position `r` in the crystal whose lattice vectors are the rows of `L`: in `[0, 1)`, and
`r = Σ f_i L_i` up to a lattice vector. -/
def IsFractional (L : Matrix (Fin 3) (Fin 3) ℝ) (r f : Fin 3 → ℝ) : Prop :=
  (∀ i, 0 ≤ f i ∧ f i < 1) ∧ ∃ z : Fin 3 → ℤ, ∀ k, r k = ∑ i, (f i + z i) * L i k

end Jaqmc.Density.Spec
