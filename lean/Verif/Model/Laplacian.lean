import Mathlib.Analysis.Calculus.FDeriv.Basic
import Mathlib.Analysis.Calculus.Deriv.Basic
import Mathlib.Analysis.SpecialFunctions.ExpDeriv
import Mathlib.Analysis.SpecialFunctions.Pow.Real
import Mathlib.Analysis.SpecialFunctions.Trigonometric.Inverse
import Mathlib.Analysis.SpecialFunctions.Trigonometric.Arctan
import Mathlib.Analysis.SpecialFunctions.Complex.Log
import Mathlib.LinearAlgebra.Matrix.NonsingularInverse
import Mathlib.Data.Sign.Basic
import Mathlib.Logic.Equiv.Fin.Basic
import Verif.Model.Interp
/-!
Model of the dense forward-Laplacian transform, `src/jaqmc/laplacian/`.

Numbers are exact reals and complex numbers (no rounding, no NaN).  An array is flattened: its shape is represented by
its number of elements.  JAX's automatic differentiation of a primitive (`jax.linearize`, `jax.jvp`, `jax.vjp`) is
modelled by Mathlib's derivative of the function the primitive computes.  Jacobians are dense arrays whose leading axis
is indexed by `κ`, the tracked scalar inputs (types.py:25-52); the sparse payloads are modelled in `Model/Sparse.lean`.
-/
namespace Jaqmc.Laplacian
open Jaqmc.Interp

/-! ### Arrays and LapTuples -/

/-- dtype and size of a floating-point array: real or complex, with `n` elements. -/
inductive Ty where
  | real (n : ℕ)
  | cplx (n : ℕ)
deriving DecidableEq

def Ty.size : Ty → ℕ
  | .real n => n
  | .cplx n => n

/-- Array contents. -/
def Space : Ty → Type
  | .real n => Fin n → ℝ
  | .cplx n => Fin n → ℂ

noncomputable instance instSpaceNACG : ∀ t, NormedAddCommGroup (Space t)
  | .real n => inferInstanceAs (NormedAddCommGroup (Fin n → ℝ))
  | .cplx n => inferInstanceAs (NormedAddCommGroup (Fin n → ℂ))

noncomputable instance instSpaceNS : ∀ t, NormedSpace ℝ (Space t)
  | .real n => inferInstanceAs (NormedSpace ℝ (Fin n → ℝ))
  | .cplx n => inferInstanceAs (NormedSpace ℝ (Fin n → ℂ))

/-- A JAX array: floating point (real or complex), or discrete (integers; booleans are 0 and 1). -/
inductive Arr where
  | num (t : Ty) (v : Space t)
  | disc (n : ℕ) (v : Fin n → ℤ)

/-- `LapTuple` with a dense Jacobian: value, derivative along each tracked input, Laplacian. types.py:25-52. -/
structure Lap (κ E : Type) where
  x : E
  jac : κ → E
  lap : E

/-- `ArrayOrLapTuple`, types.py:141. -/
inductive TVal (κ : Type) where
  | plain (a : Arr)
  | tracked (t : Ty) (a : Lap κ (Space t))

variable {κ : Type}

/-- `value.x if isinstance(value, LapTuple) else value` -/
def TVal.primal : TVal κ → Arr
  | .plain a => a
  | .tracked t a => .num t a.x

/-- `isinstance(value, LapTuple)` -/
def TVal.isTracked : TVal κ → Bool
  | .plain _ => false
  | .tracked _ _ => true

/-! ### Primitives and handlers -/

/-- A primitive: what it computes (`primitive.bind`), its forward-Laplacian handler, and the condition on the input
values under which the function it computes is smooth (part of the statement, not of the code). -/
structure Prim (κ : Type) where
  bind : List Arr → Except String (List Arr)
  rule : List (TVal κ) → Except String (List (TVal κ))
  ok : List Arr → Prop

/-- `_eval_eqn`, interpreter.py:140-166: without tracked inputs the primitive itself is evaluated, otherwise its
handler. -/
def Prim.evalEqn (pr : Prim κ) (vs : List (TVal κ)) : Except String (List (TVal κ)) :=
  if vs.any TVal.isTracked then pr.rule vs else (pr.bind (vs.map TVal.primal)).map (List.map .plain)

/-! ### Splitting tracked from plain arguments: `setup_handler`, core.py:134-195 -/

/-- The values of the tracked arguments among `vs` (`LapArgs.x`, types.py:146-159). -/
def TList : List (TVal κ) → Type
  | [] => PUnit
  | .plain _ :: vs => TList vs
  | .tracked t _ :: vs => Space t × TList vs

noncomputable instance instTListNACG : ∀ vs : List (TVal κ), NormedAddCommGroup (TList vs)
  | [] => inferInstanceAs (NormedAddCommGroup PUnit)
  | .plain _ :: vs => instTListNACG vs
  | .tracked t _ :: vs => letI := instTListNACG vs; inferInstanceAs (NormedAddCommGroup (Space t × TList vs))

noncomputable instance instTListNS : ∀ vs : List (TVal κ), NormedSpace ℝ (TList vs)
  | [] => inferInstanceAs (NormedSpace ℝ PUnit)
  | .plain _ :: vs => instTListNS vs
  | .tracked t _ :: vs => letI := instTListNS vs; inferInstanceAs (NormedSpace ℝ (Space t × TList vs))

/-- `LapArgs.x` -/
def xs : ∀ vs : List (TVal κ), TList vs
  | [] => PUnit.unit
  | .plain _ :: vs => xs vs
  | .tracked _ a :: vs => (a.x, xs vs)

/-- Row `k` of `LapArgs.jacobian` -/
def js (k : κ) : ∀ vs : List (TVal κ), TList vs
  | [] => PUnit.unit
  | .plain _ :: vs => js k vs
  | .tracked _ a :: vs => (a.jac k, js k vs)

/-- `LapArgs.laplacian` -/
def ls : ∀ vs : List (TVal κ), TList vs
  | [] => PUnit.unit
  | .plain _ :: vs => ls vs
  | .tracked _ a :: vs => (a.lap, ls vs)

/-- The `merge` closure of `_partition_tracked_args`, core.py:113-131: tracked values go back between the plain ones. -/
def merge : ∀ vs : List (TVal κ), TList vs → List Arr
  | [], _ => []
  | .plain a :: vs, y => a :: merge vs y
  | .tracked t _ :: vs, y => .num t y.1 :: merge vs y.2

/-- The single floating-point result of a primitive, read at type `t`. -/
noncomputable def outAt (t : Ty) : Except String (List Arr) → Space t
  | .ok [.num t' w] => if h : t' = t then h ▸ w else 0
  | _ => 0

/-- `merged_fwd`, core.py:182-183: the primitive as a function of the tracked arguments only. -/
noncomputable def mergedFwd (bind : List Arr → Except String (List Arr)) (vs : List (TVal κ)) (t : Ty) (y : TList vs) :
    Space t := outAt t (bind (merge vs y))

/-- `dense_split_jvp` (jvp.py:67-75; `dense_elementwise_jvp`, jvp.py:30-64, computes the same for elementwise functions):
value, directional derivatives along the rows of the Jacobian, and along the Laplacian. -/
noncomputable def denseJvp (bind : List Arr → Except String (List Arr)) (vs : List (TVal κ)) (t : Ty) (v : Space t) :
    Lap κ (Space t) :=
  let D := fderiv ℝ (mergedFwd bind vs t) (xs vs)
  ⟨v, fun k => D (js k vs), D (ls vs)⟩

/-- `wrap_linear`, core.py:317-346. -/
noncomputable def wrapLinear (bind : List Arr → Except String (List Arr)) (vs : List (TVal κ)) :
    Except String (List (TVal κ)) :=
  match bind (vs.map TVal.primal) with
  | .error e => .error e
  | .ok [.num t v] => .ok [.tracked t (denseJvp bind vs t v)]
  | .ok _ => .error "not a single floating-point result"

/-- `wrap_without_fwd_laplacian`, core.py:534-560. -/
def wrapBarrier (bind : List Arr → Except String (List Arr)) (vs : List (TVal κ)) : Except String (List (TVal κ)) :=
  (bind (vs.map TVal.primal)).map (List.map .plain)

/-! ### The Hessian term: `general_jac_hessian_jac`, hessian.py:105-133 -/

/-- Indices of the flattened tracked arguments (`ravel_pytree`). -/
def Idx : List (TVal κ) → Type
  | [] => Empty
  | .plain _ :: vs => Idx vs
  | .tracked t _ :: vs => Fin t.size ⊕ Idx vs

instance instIdxFintype : ∀ vs : List (TVal κ), Fintype (Idx vs)
  | [] => inferInstanceAs (Fintype Empty)
  | .plain _ :: vs => instIdxFintype vs
  | .tracked t _ :: vs => letI := instIdxFintype vs; inferInstanceAs (Fintype (Fin t.size ⊕ Idx vs))

/-- The array whose element `i` is `c` and whose other elements are 0.  A real array takes the real part (the `unravel`
closure of `ravel_pytree` converts back from the common dtype). -/
def single : ∀ t : Ty, Fin t.size → ℂ → Space t
  | .real n, i, c => fun (j : Fin n) => if j.val = i.val then c.re else 0
  | .cplx n, i, c => fun (j : Fin n) => if j.val = i.val then c else 0

/-- Element `i` of an array, as a complex number. -/
def elem : ∀ t : Ty, Space t → Fin t.size → ℂ
  | .real _, v, i => (v i : ℝ)
  | .cplx _, v, i => v i

/-- The tracked arguments with element `i` equal to `c` and all others 0 (`unravel` of a multiple of a unit vector). -/
noncomputable def unit : ∀ vs : List (TVal κ), Idx vs → ℂ → TList vs
  | .plain _ :: vs, i, c => unit vs i c
  | .tracked t _ :: vs, .inl i, c => (single t i c, (0 : TList vs))
  | .tracked t _ :: vs, .inr i, c => ((0 : Space t), unit vs i c)

/-- Element `i` of the flattened tracked arguments. -/
def coord : ∀ vs : List (TVal κ), TList vs → Idx vs → ℂ
  | .plain _ :: vs, y, i => coord vs y i
  | .tracked t _ :: _, y, .inl i => elem t y.1 i
  | .tracked _ _ :: vs, y, .inr i => coord vs y.2 i

/-- `jnp.iscomplexobj(flat_x)` -/
def anyComplex : List (TVal κ) → Bool
  | [] => false
  | .plain _ :: vs => anyComplex vs
  | .tracked (.real _) _ :: vs => anyComplex vs
  | .tracked (.cplx _) _ :: _ => true

variable [Fintype κ]

/-- `JHJ_via_trace`, hessian.py:68-86: nested directional derivatives. -/
noncomputable def viaTrace (vs : List (TVal κ)) (t : Ty) (F : TList vs → Space t) : Space t :=
  ∑ k, fderiv ℝ (fun y => fderiv ℝ F y (js k vs)) (xs vs) (js k vs)

/-- `JHJ_via_hessian`, hessian.py:60-65, real inputs: `H_ij` contracted with `(J Jᵀ)_ij`. -/
noncomputable def viaHessianReal (vs : List (TVal κ)) (t : Ty) (F : TList vs → Space t) : Space t :=
  ∑ i, ∑ j, (∑ k, (coord vs (js k vs) i).re * (coord vs (js k vs) j).re) •
    fderiv ℝ (fun y => fderiv ℝ F y (unit vs j 1)) (xs vs) (unit vs i 1)

/-- What JAX's `vjp` returns for input element `j` and cotangent 1, when the input is complex: with `a`, `b` the
derivatives in the directions 1 and `i`, the derivative is `α t + β conj(t)` and the result is `α + conj(β)`
(ad.py:80-92 uses `jax.vjp` unchanged for complex inputs). -/
noncomputable def jaxGrad (a b : ℂ) : ℂ :=
  (a - Complex.I * b) / 2 + (starRingEnd ℂ) ((a + Complex.I * b) / 2)

/-- `JHJ_via_hessian`, hessian.py:60-65, complex inputs and output: `jacfwd(jacrev(f))` of ad.py:100-152. -/
noncomputable def viaHessianCplx (vs : List (TVal κ)) (n : ℕ) (F : TList vs → Space (.cplx n)) : Space (.cplx n) :=
  fun o => ∑ i, ∑ j, (∑ k, coord vs (js k vs) i * coord vs (js k vs) j) *
    fderiv ℝ (fun y => jaxGrad (fderiv ℝ F y (unit vs j 1) o) (fderiv ℝ F y (unit vs j Complex.I) o)) (xs vs)
      (unit vs i 1)

/-- `JHJ_via_hvp(...).real`, hessian.py:89-102 and 127: complex inputs and real output. -/
noncomputable def viaHvp (vs : List (TVal κ)) (n : ℕ) (F : TList vs → Space (.real n)) : Space (.real n) :=
  fun o => (∑ j, ∑ k, fderiv ℝ (fun y => jaxGrad ((fderiv ℝ F y (unit vs j 1) : Fin n → ℝ) o : ℝ)
    ((fderiv ℝ F y (unit vs j Complex.I) : Fin n → ℝ) o : ℝ)) (xs vs) (js k vs) * coord vs (js k vs) j).re

/-- `general_jac_hessian_jac`, hessian.py:105-133.  `inp_dim` is the number of tracked inputs, `jac_dim` the number of
elements of the arguments. -/
noncomputable def generalHessian (vs : List (TVal κ)) : ∀ t : Ty, (TList vs → Space t) → Space t
  | .real n, F =>
    if Fintype.card κ > Fintype.card (Idx vs) then
      if anyComplex vs then viaHvp vs n F else viaHessianReal vs (.real n) F
    else viaTrace vs (.real n) F
  | .cplx n, F =>
    if Fintype.card κ > Fintype.card (Idx vs) then
      if anyComplex vs then viaHessianCplx vs n F else viaHessianReal vs (.cplx n) F
    else viaTrace vs (.cplx n) F

/-- `wrap_general`, core.py:395-426; also used for unregistered primitives (registry.py:80-113) and for
`custom_jvp_call` (interpreter.py:334-352). -/
noncomputable def wrapGeneral (bind : List Arr → Except String (List Arr)) (vs : List (TVal κ)) :
    Except String (List (TVal κ)) :=
  match bind (vs.map TVal.primal) with
  | .error e => .error e
  | .ok [.num t v] =>
    let d := denseJvp bind vs t v
    .ok [.tracked t { d with lap := d.lap + generalHessian vs t (mergedFwd bind vs t) }]
  | .ok _ => .error "not a single floating-point result"

end Jaqmc.Laplacian
