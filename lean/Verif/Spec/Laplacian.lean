import Mathlib.Analysis.Calculus.Deriv.Basic
import Mathlib.Analysis.Normed.Module.Basic
/-!
Specification for C44: what it means that a triple (value, Jacobian, Laplacian) is right.

`P` is the space of the tracked inputs, `p` the point at which the program runs, `d k` the direction of the `k`-th
tracked coordinate (the `k`-th unit vector, or its multiple by a weight). A program computes a function `u : P → E`.
-/
namespace Jaqmc.Laplacian.Spec
open Filter Topology

/-- The curve `g` has value `a`, first derivative `b` and second derivative `c` at 0. -/
def Jet2 {E : Type} [NormedAddCommGroup E] [NormedSpace ℝ E] (g : ℝ → E) (a b c : E) : Prop :=
  g 0 = a ∧ ∃ g' : ℝ → E, (∀ᶠ t in 𝓝 0, HasDerivAt g (g' t) t) ∧ g' 0 = b ∧ HasDerivAt g' c 0

/-- A bundle of curves (one for each direction `k`) starts at `x`, with velocities `J k`, and `L` is the sum of the
second derivatives. -/
def CurveLap {E κ : Type} [NormedAddCommGroup E] [NormedSpace ℝ E] [Fintype κ] (γ : κ → ℝ → E) (x : E) (J : κ → E)
    (L : E) : Prop :=
  ∃ c : κ → E, (∀ k, Jet2 (γ k) x (J k) (c k)) ∧ L = ∑ k, c k

/-- `x` is the value of `u` at `p`, `J k` its derivative in direction `d k`, and `L` the sum of its second derivatives
in all the directions `d k` (the Laplacian, when the `d k` are the unit vectors). -/
def IsLaplacian {P E κ : Type} [AddCommGroup P] [Module ℝ P] [NormedAddCommGroup E] [NormedSpace ℝ E] [Fintype κ]
    (p : P) (d : κ → P) (u : P → E) (x : E) (J : κ → E) (L : E) : Prop :=
  u p = x ∧ CurveLap (fun k t => u (p + t • d k)) x J L

end Jaqmc.Laplacian.Spec
