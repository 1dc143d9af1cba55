import Verif.Model.LaplacianSeed
import Verif.Model.LaplacianLinear
import Verif.Lemmas.LaplacianDet
import Verif.Lemmas.LaplacianCplx
import Verif.Lemmas.LaplacianLoop
/-!
The primitives covered by C44, each with its handler and with the condition on its inputs under which the statement
applies.
-/
namespace Jaqmc.Laplacian.Spec
open Jaqmc.Laplacian

/-- All arguments are integer arrays. -/
def AllDisc (as : List Arr) : Prop := ∀ a ∈ as, ∃ n v, a = Arr.disc n v

variable {κ : Type} [Fintype κ]

/-- The handlers of `primitives/*.py` and `interpreter.py` on dense LapTuples. -/
inductive Builtin : Prim κ → Prop
  /-- `wrap_linear`: any function that is affine near its inputs (`max`, `min`, `reduce_max`, `rem`, `round`, `scatter`, ...
  away from ties and jumps; on integer arrays anything). -/
  | linear (bind) : Builtin ⟨bind, wrapLinear bind, fun as => AllDisc as ∨ AffineAt bind as⟩
  /-- `wrap_linear` on the linear primitives: no condition. -/
  | lin (lay : Layout) : Builtin ⟨linBind lay, wrapLinear (linBind lay), fun _ => True⟩
  /-- `wrap_general`: `pow`, `atan2`, `reduce_prod`, `logaddexp`, custom derivatives, every unregistered primitive. -/
  | general (bind) : Builtin ⟨bind, wrapGeneral bind, fun as => AllDisc as ∨ SmoothAt bind as⟩
  /-- `wrap_without_fwd_laplacian`: comparisons, logical operations, `sign`, ... where locally constant. -/
  | barrier (bind) : Builtin ⟨bind, wrapBarrier bind, ConstAt bind⟩
  | add : Builtin ⟨addBind, addRule, fun _ => True⟩
  | mul : Builtin ⟨mulBind, mulRule, fun _ => True⟩
  /-- Division by a non-zero array which is not the numerator object itself. -/
  | div : Builtin ⟨divBind, divRule false, okBin okDiv okDiv⟩
  | fn (f : Fn) : Builtin ⟨fnBind f, fnRule f, okFn f⟩
  | dot (D : DotDims) : Builtin ⟨dotBind D, dotRule D, fun _ => True⟩
  | conj : Builtin ⟨conjBind, conjRule, fun _ => True⟩
  | real : Builtin ⟨realBind, realRule, fun _ => True⟩
  | imag : Builtin ⟨imagBind, imagRule, fun _ => True⟩
  | complex : Builtin ⟨complexBind, complexRule, fun _ => True⟩
  | toCplx : Builtin ⟨toCplxBind, toCplxRule, fun _ => True⟩
  | toReal : Builtin ⟨toRealBind, toRealRule, fun _ => True⟩
  | abs : Builtin ⟨absBind, absRule, okAbs⟩
  | slogdet (b n : ℕ) : Builtin ⟨slogdetBind b n, slogdetRule b n, okSlogdet b n⟩
  | pjit (p : Prog κ) (h : ∀ e ∈ p.eqns, Builtin e.prim) (hlim : p.fewReads) : Builtin (pjitPrim p)
  | while (cond body : Prog κ) (h : ∀ e ∈ body.eqns, Builtin e.prim) (hc : cond.fewReads) (hb : body.fewReads)
      (ncc nbc fuel : ℕ) : Builtin (whilePrim (ConstAt cond.runPlain) cond body ncc nbc fuel)
  | scan (body : Prog κ) (h : ∀ e ∈ body.eqns, Builtin e.prim) (hb : body.fewReads) (nconst nc L : ℕ) (reverse : Bool) :
      Builtin (scanPrim body nconst nc L reverse)

/-- Output `j` of a program as a function of the contents of its floating-point inputs, read as an array of type `t`
(0 when the run fails or the output has another type). -/
noncomputable def output (p : Prog κ) (args : List Arr) (j : ℕ) (t : Ty) (y : NList args) : Space t :=
  outAt t ((p.runPlain (put args y)).map fun outs => (outs[j]?).toList)

end Jaqmc.Laplacian.Spec
