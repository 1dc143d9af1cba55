import Verif.Spec.SparseArr
import Mathlib.Algebra.Order.Field.Basic
import Mathlib.Analysis.Complex.Basic
/-!
Specification for C45: the dense forward-Laplacian rules, i.e. the exact first- and second-order chain rules on a value,
its dense Jacobian (one row per input coordinate) and its Laplacian.  Nothing here mentions owners or sparsity.
-/
namespace Jaqmc.Sparse

/-- A value with its dense Jacobian (`n` rows, each of the shape of the value) and Laplacian. -/
structure DLap (K : Type) where
  x : Arr K
  n : ℕ
  jac : ℕ → Arr K
  lap : Arr K

/-- Same value, Jacobian and Laplacian. -/
def DLap.Same {K : Type} (D E : DLap K) : Prop :=
  D.x.Same E.x ∧ D.n = E.n ∧ (∀ r < D.n, (D.jac r).Same (E.jac r)) ∧ D.lap.Same E.lap

namespace Spec
variable {K : Type} [Field K]

/-- A constant: no derivatives. -/
def const (n : ℕ) (p : Arr K) : DLap K := ⟨p, n, fun _ => fullA p.shape 0, fullA p.shape 0⟩

/-- Elementwise `f` with first and second derivatives `f1`, `f2`. -/
def chain1 (f f1 f2 : K → K) (D : DLap K) : DLap K where
  x := ⟨D.x.shape, fun i => f (D.x.get i)⟩
  n := D.n
  jac r := ⟨D.x.shape, fun i => f1 (D.x.get i) * (D.jac r).get i⟩
  lap := ⟨D.x.shape, fun i => f1 (D.x.get i) * D.lap.get i +
    f2 (D.x.get i) * ∑ r ∈ Finset.range D.n, (D.jac r).get i * (D.jac r).get i⟩

/-- A function of two values with its partial derivatives up to second order. -/
structure Fun2 (K : Type) where
  f : K → K → K
  d1 : K → K → K
  d2 : K → K → K
  d11 : K → K → K
  d12 : K → K → K
  d22 : K → K → K

/-- Elementwise function of two broadcast operands. -/
def chain2 (F : Fun2 K) (D E : DLap K) : DLap K :=
  let sh := bshape D.x.shape E.x.shape
  let u := D.x.bcast sh
  let v := E.x.bcast sh
  let J := fun r => (D.jac r).bcast sh
  let H := fun r => (E.jac r).bcast sh
  { x := ⟨sh, fun i => F.f (u.get i) (v.get i)⟩
    n := D.n
    jac := fun r => ⟨sh, fun i => F.d1 (u.get i) (v.get i) * (J r).get i + F.d2 (u.get i) (v.get i) * (H r).get i⟩
    lap := ⟨sh, fun i =>
      F.d1 (u.get i) (v.get i) * (D.lap.bcast sh).get i + F.d2 (u.get i) (v.get i) * (E.lap.bcast sh).get i +
      (F.d11 (u.get i) (v.get i) * (∑ r ∈ Finset.range D.n, (J r).get i * (J r).get i) +
       2 * F.d12 (u.get i) (v.get i) * (∑ r ∈ Finset.range D.n, (J r).get i * (H r).get i) +
       F.d22 (u.get i) (v.get i) * (∑ r ∈ Finset.range D.n, (H r).get i * (H r).get i))⟩ }

def addF : Fun2 K := ⟨fun a b => a + b, fun _ _ => 1, fun _ _ => 1, fun _ _ => 0, fun _ _ => 0, fun _ _ => 0⟩
def subF : Fun2 K := ⟨fun a b => a - b, fun _ _ => 1, fun _ _ => -1, fun _ _ => 0, fun _ _ => 0, fun _ _ => 0⟩
def mulF : Fun2 K := ⟨fun a b => a * b, fun _ b => b, fun a _ => a, fun _ _ => 0, fun _ _ => 1, fun _ _ => 0⟩
def divF : Fun2 K := ⟨fun a b => a / b, fun _ b => 1 / b, fun a b => -a / b ^ 2, fun _ _ => 0, fun _ b => -1 / b ^ 2,
  fun a b => 2 * a / b ^ 3⟩
/-- `x ↦ pw x c` for a constant exponent `c`, with first and second derivative in `x`. -/
def powF (pw pw1 pw2 : K → K → K) : Fun2 K := ⟨pw, pw1, fun _ _ => 0, pw2, fun _ _ => 0, fun _ _ => 0⟩
/-- Remainder by a constant. -/
def remF (rem : K → K → K) : Fun2 K := ⟨rem, fun _ _ => 1, fun _ _ => 0, fun _ _ => 0, fun _ _ => 0, fun _ _ => 0⟩

open Classical in
/-- `max` or `min` (`better a b`: `a` is picked over `b` or equal): the derivative of the picked operand, the average of
the two at a tie. -/
noncomputable def pickF (pick : K → K → K) (better : K → K → Prop) : Fun2 K where
  f := pick
  d1 a b := if a = b then 1 / 2 else if better a b then 1 else 0
  d2 a b := if a = b then 1 / 2 else if better a b then 0 else 1
  d11 _ _ := 0
  d12 _ _ := 0
  d22 _ _ := 0

/-- A linear primitive: applied to the value, to every Jacobian row and to the Laplacian. -/
def linear {K L : Type} (p : Arr K → Arr L) (D : DLap K) : DLap L := ⟨p D.x, D.n, fun r => p (D.jac r), p D.lap⟩

/-- An affine primitive: `p` on the value, its linear part `q` on every Jacobian row and on the Laplacian. -/
def affine {K L : Type} (p q : Arr K → Arr L) (D : DLap K) : DLap L := ⟨p D.x, D.n, fun r => q (D.jac r), q D.lap⟩

/-- A linear primitive of several operands. -/
def linearN (p : List (Arr K) → Arr K) (n : ℕ) (Ds : List (DLap K)) : DLap K :=
  ⟨p (Ds.map (·.x)), n, fun r => p (Ds.map fun D => D.jac r), p (Ds.map (·.lap))⟩

open Classical in
/-- Maximum or minimum over axes (`red`): the derivative is averaged over the entries that attain it. -/
noncomputable def reducePick (red : Arr K → Arr K) (axes : List ℕ) (D : DLap K) : DLap K :=
  let y := red D.x
  let hit : List ℕ → Prop := fun j => D.x.get j = y.get (dropAxes axes j)
  let cnt : List ℕ → K := fun i => sumIdx D.x.shape fun j => if dropAxes axes j = i ∧ hit j then 1 else 0
  let avg : Arr K → Arr K := fun A => ⟨dropAxes axes A.shape, fun i =>
    (sumIdx D.x.shape fun j => if dropAxes axes j = i ∧ hit j then A.get j else 0) / cnt i⟩
  ⟨y, D.n, fun r => avg (D.jac r), avg D.lap⟩

/-- `a + b` entry by entry for arrays of one shape. -/
def plus (A B : Arr K) : Arr K := ⟨A.shape, fun i => A.get i + B.get i⟩

/-- A bilinear primitive: product rule. -/
def bilinear (p : Arr K → Arr K → Arr K) (D E : DLap K) : DLap K where
  x := p D.x E.x
  n := D.n
  jac r := plus (p (D.jac r) E.x) (p D.x (E.jac r))
  lap := ⟨(p D.x E.x).shape, fun i => (p D.lap E.x).get i + (p D.x E.lap).get i +
    2 * ∑ r ∈ Finset.range D.n, (p (D.jac r) (E.jac r)).get i⟩

/-- Element-wise choice of one of several cases (`lax.select_n`, selector already clipped). -/
def selectN (which : Arr ℕ) (sh : List ℕ) (As : List (Arr K)) : Arr K :=
  ⟨sh, fun i => ((As[(which.bcast sh).get i]?).map fun A => (A.bcast sh).get i).getD 0⟩

/-- The seed of a differentiation variable `x` with coordinate weights `w`: `∂x[i]/∂x[r] = w[i]` when `r` is the position
of `i`. -/
def seed (x w : Arr K) : DLap K where
  x := x
  n := x.shape.prod
  jac r := ⟨x.shape, fun i => if ravel x.shape i = r then w.get i else 0⟩
  lap := fullA x.shape 0

/-- `|z|` of a complex value: `∂|z| = Re(z̄ ∂z)/|z|` and `Δ|z| = Re(z̄ Δz)/|z| + (Σ|∂z|² − Σ(∂|z|)²)/|z|`. -/
noncomputable def absComplex (D : DLap ℂ) : DLap ℝ :=
  let jac : ℕ → Arr ℝ := fun r => ⟨D.x.shape, fun i =>
    ((D.x.get i).re * ((D.jac r).get i).re + (D.x.get i).im * ((D.jac r).get i).im) / ‖D.x.get i‖⟩
  { x := ⟨D.x.shape, fun i => ‖D.x.get i‖⟩
    n := D.n
    jac := jac
    lap := ⟨D.x.shape, fun i =>
      ((D.x.get i).re * (D.lap.get i).re + (D.x.get i).im * (D.lap.get i).im) / ‖D.x.get i‖ +
      ((∑ r ∈ Finset.range D.n, ‖(D.jac r).get i‖ ^ 2) - ∑ r ∈ Finset.range D.n, (jac r).get i ^ 2) / ‖D.x.get i‖⟩ }

end Spec
end Jaqmc.Sparse
