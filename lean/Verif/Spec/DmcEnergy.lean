import Verif.Model.DmcEnergy
import Mathlib.Algebra.BigOperators.Intervals
/-!
What the DMC energy and time-step properties (C86, C87) speak about.
-/
namespace Jaqmc.DmcEnergy

/-- The weight correction of call `i`: `exp` of minus the time step times the sum of the energy
offsets of the last `T` calls. -/
noncomputable def correction (T : ℕ) (a : ℕ → Call) (i : ℕ) : ℝ :=
  Real.exp (-(a i).timeStep * ∑ k ∈ Finset.Ico (i + 1 - T) (i + 1), (a k).offset)

/-- The last `K` calls up to call `n`. -/
def window (K n : ℕ) : Finset ℕ := Finset.Ico (n + 1 - K) (n + 1)

/-- All walkers of all updates, in one list. -/
def walks (h : List (List Walk)) : List Walk := h.flatten

/-- The weighted sum of a quantity over all walkers of all updates. -/
noncomputable def wsum (h : List (List Walk)) (x : Walk → ℝ) : ℝ :=
  ((walks h).map fun e => e.weight * x e).sum

end Jaqmc.DmcEnergy
