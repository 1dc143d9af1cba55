import Verif.Spec.Geometry
import Mathlib.Analysis.SpecialFunctions.Trigonometric.Basic
/-! Specifications for C36 and C37. Lattices are given by their rows; `Image L u v` (Spec.Geometry) says that `v` is
`u` plus a vector of the lattice. -/
namespace Jaqmc.Supercell.Spec
open Jaqmc.Geometry Jaqmc.Geometry.Spec Matrix

/-- The rows of `A'` are the supercell vectors `Σ_j S_ij a_j`. -/
def IsSupercell (S : Matrix (Fin 3) (Fin 3) ℤ) (A A' : Matrix (Fin 3) (Fin 3) ℝ) : Prop :=
  ∀ i k, A' i k = ∑ j, (S i j : ℝ) * A j k

/-- `k` is a wave vector of the lattice `A`: the plane wave `exp(i k·r)` has the period of every lattice vector. -/
def WaveVector (A : Matrix (Fin 3) (Fin 3) ℝ) (k : Vec 3) : Prop :=
  ∀ m : Fin 3 → ℤ, ∃ z : ℤ, dot k (translation A m) = 2 * Real.pi * z

/-- `k` and `k'` are equivalent in the lattice `A`: they differ by a wave vector of the lattice. -/
def Equivalent (A : Matrix (Fin 3) (Fin 3) ℝ) (k k' : Vec 3) : Prop := WaveVector A (fun j => k j - k' j)

end Jaqmc.Supercell.Spec
