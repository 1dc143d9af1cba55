import Verif.Model.DmcBranch
import Mathlib.Probability.ProductMeasure
import Mathlib.MeasureTheory.Measure.Lebesgue.Basic
/-!
What the branching properties (C84, C85) speak about: weighted sums over a
population, and independent uniform draws.
-/
namespace Jaqmc.DmcBranch
open MeasureTheory

/-- The uniform distribution on the unit interval. -/
noncomputable def unif : Measure ℝ := volume.restrict (Set.Icc 0 1)

instance : IsProbabilityMeasure unif := ⟨by simp [unif]⟩

/-- An infinite sequence of independent uniform draws. -/
noncomputable def draws : Measure (ℕ → ℝ) := Measure.infinitePi fun _ => unif

instance : IsProbabilityMeasure draws := by unfold draws; infer_instance

/-- `∑ weight * f(walker)` over a list of weighted walkers. -/
def weighted {α : Type*} (f : α → ℝ) (p : List (ℝ × α)) : ℝ := (p.map fun e => e.1 * f e.2).sum

/-- The total weight of a list of weighted walkers. -/
def total {α : Type*} (p : List (ℝ × α)) : ℝ := (p.map Prod.fst).sum

/-- A population given as arrays, as a list. -/
def asList {N : ℕ} {α : Type*} (w : Fin N → ℝ) (x : Fin N → α) : List (ℝ × α) :=
  List.ofFn fun i => (w i, x i)

end Jaqmc.DmcBranch
