import Verif.Spec.Sparse
import Verif.Model.SparseProg
/-!
Specification for C45: when the operands of a primitive are of the kind the sparse rules cover (JAX's own typing checks, and
the few points where the rules are known to differ, see `Props/SparseLimits.lean`), and what it means that a run of a
program agrees with the dense rules.
-/
namespace Jaqmc.Sparse
open Spec

section
variable {K : Type} [Field K]

/-- The operands of a primitive: `vs` as stored, `Ds` as values with dense derivatives.  Broadcasting, permutations,
windows and dimension numbers are well typed; reduced and contracted axes are not empty; `max`/`min` between a tracked and an
untracked operand have no ties; plain segments of a concatenation along the owner axis are as long as the first tracked one. -/
def Op.Pre (op : Op K) (vs : List (Val K)) (Ds : List (DLap K)) : Prop :=
  match op, Ds with
  | .component f, _ => ∀ u v, f (u + v) = f u + f v
  | .addSub _, [D, E] => Compat D.x.shape E.x.shape
  | .mul, [D, E] => Compat D.x.shape E.x.shape
  | .div, [D, E] => Compat D.x.shape E.x.shape
  | .pick _ pred, [D, E] =>
    D.x.shape = E.x.shape ∧ (∀ a b, a ≠ b → (pred a b = true ↔ ¬ pred b a = true)) ∧
    ((∀ u ∈ vs, u.IsSparse) ∨ ∀ i, InB D.x.shape i → D.x.get i ≠ E.x.get i) ∧
    ∀ a b, vs = [.sparse a, .sparse b] → compat a.jac b.jac
  | .transpose perm, [D] => perm.Perm (List.range D.x.shape.length)
  | .squeeze dims, [D] => dims.Nodup ∧ ∀ d ∈ dims, D.x.shape.getD d 0 = 1
  | .slice _ limit _, [D] => ∀ a < D.x.shape.length, limit.getD a 0 ≤ D.x.shape.getD a 0
  | .split axis sizes k, [D] => axis < D.x.shape.length ∧ sizes.sum = D.x.shape.getD axis 0 ∧ k < sizes.length
  | .broadcastInDim _ bdims, [D] => bdims.length = D.x.shape.length
  | .reshape new, [D] => new.prod = D.x.shape.prod
  | .reduceSum axes, [D] => axes.Nodup ∧ ∀ a ∈ axes, D.x.shape.getD a 0 ≠ 0
  | .reducePick red axes, [D] =>
    (red D.x).shape = dropAxes axes D.x.shape ∧ axes.Nodup ∧ ∀ a ∈ axes, D.x.shape.getD a 0 ≠ 0
  | .selectN which, Ds => ∃ sh, (∀ D ∈ Ds, D.x.shape = sh) ∧ (which.shape = sh ∨ which.shape = [])
  | .concatenate axis, Ds =>
    (∃ base : List ℕ, axis < base.length ∧ ∀ D ∈ Ds, ∃ m, D.x.shape = base.set axis m) ∧
    ∀ p, Val.plain p ∈ vs → ∀ t, (sparsesOf vs).head? = some t →
      (∀ o ∈ t.jac.roles, o.axis ≠ some axis) ∨ p.shape.getD axis 0 = t.x.shape.getD axis 0
  | .gather starts _ g sizes _ _, [D] => g.OK D.x.shape starts.shape sizes
  | .dot d, [D, E] => d.OK D.x.shape E.x.shape ∧ ∀ c ∈ d.lc, D.x.shape.getD c 0 ≠ 0
  | _, _ => True

/-- `F` gives every value of a run in dense form, and every equation holds under the dense rules: the result of equation `k`
is the dense rule of its primitive applied to the dense forms of its operands. -/
def DenseRun (n : ℕ) (prog : List (Eqn K)) (start : ℕ) (F : List (DLap K)) : Prop :=
  ∀ k e, prog[k]? = some e →
    ∃ Ds E D, e.args.mapM (F[·]?) = some Ds ∧ e.op.rule n Ds = some E ∧ F[start + k]? = some D ∧ D.Same E

end
end Jaqmc.Sparse
