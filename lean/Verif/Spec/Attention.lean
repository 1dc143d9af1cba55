import Verif.Model.Attention
import Verif.Spec.Laplacian
/-! Vocabulary for the attention rule. -/
namespace Jaqmc.Attention.Spec
open Jaqmc.Laplacian.Spec

/-- The triple carries the value, the derivatives in the directions of the tracked inputs and the Laplacian of every entry of `f` at `p`. -/
def Carries {n C H D : ℕ} {P : Type} [AddCommGroup P] [Module ℝ P] (p : P) (dir : Fin (n * C) → P) (f : P → Arr3 n H D) (t : Dense n C H D) : Prop :=
  ∀ i h e, IsLaplacian p dir (fun y => f y i h e) (t.x i h e) (fun r => t.jac r i h e) (t.lap i h e)

/-- The particle axis of the tracked input is its first axis (positions of shape `(n, C)`, or `(n, a, b)` with `C = a b`). -/
def ParticlesFirst {n C H D : ℕ} (t : Local1 n C H D) : Prop := t.ownAx = 0 ∧ ∃ rest : List ℕ, t.inShape = n :: rest ∧ rest.prod = C

/-- What it means that an argument of the rule describes `f`: a plain array is a constant, a sparse Jacobian describes the dense one. -/
def ArgCarries {n C H D : ℕ} {P : Type} [AddCommGroup P] [Module ℝ P] (p : P) (dir : Fin (n * C) → P) (f : P → Arr3 n H D) : Arg n C H D → Prop
  | .plain x => ∀ y, f y = x
  | .dense t => Carries p dir f t
  | .local1 t => Carries p dir f t.toDense
  | .local2 => False

end Jaqmc.Attention.Spec
