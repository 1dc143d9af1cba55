import Mathlib.Analysis.Calculus.ContDiff.Basic
import Verif.Model.Laplacian
import Verif.Spec.Laplacian
/-!
Specification for C44 at the level of primitives and programs: what it means that a primitive is smooth at given
inputs, and that a value carried by the transform is right.
-/
namespace Jaqmc.Laplacian.Spec
open Jaqmc.Laplacian Filter Topology

/-- The floating-point contents of a list of arrays. -/
def NList : List Arr → Type
  | [] => PUnit
  | .num t _ :: as => Space t × NList as
  | .disc _ _ :: as => NList as

noncomputable instance instNListNACG : ∀ as : List Arr, NormedAddCommGroup (NList as)
  | [] => inferInstanceAs (NormedAddCommGroup PUnit)
  | .num t _ :: as => letI := instNListNACG as; inferInstanceAs (NormedAddCommGroup (Space t × NList as))
  | .disc _ _ :: as => instNListNACG as

noncomputable instance instNListNS : ∀ as : List Arr, NormedSpace ℝ (NList as)
  | [] => inferInstanceAs (NormedSpace ℝ PUnit)
  | .num t _ :: as => letI := instNListNS as; inferInstanceAs (NormedSpace ℝ (Space t × NList as))
  | .disc _ _ :: as => instNListNS as

/-- The contents of the arrays `as` themselves. -/
def pt : ∀ as : List Arr, NList as
  | [] => PUnit.unit
  | .num _ v :: as => (v, pt as)
  | .disc _ _ :: as => pt as

/-- The arrays `as` with other floating-point contents. -/
def put : ∀ as : List Arr, NList as → List Arr
  | [], _ => []
  | .num t _ :: as, y => .num t y.1 :: put as y.2
  | .disc n v :: as, y => .disc n v :: put as y

/-- Multiplication by `i` (0 on real arrays). -/
noncomputable def rotS : ∀ t : Ty, Space t → Space t
  | .real _, _ => 0
  | .cplx n, v => fun i : Fin n => Complex.I * (v : Fin n → ℂ) i

/-- Multiplication of all complex arrays by `i`. -/
noncomputable def rotN : ∀ as : List Arr, NList as → NList as
  | [], _ => PUnit.unit
  | .num t _ :: as, y => (rotS t y.1, rotN as y.2)
  | .disc _ _ :: as, y => rotN as y

def Arr.isReal : Arr → Bool
  | .num (.real _) _ => true
  | _ => false

def Arr.isCplx : Arr → Bool
  | .num (.cplx _) _ => true
  | _ => false

def Ty.isCplx : Ty → Bool
  | .cplx _ => true
  | .real _ => false

/-- Near the inputs `as` the primitive computes an affine function, with one result. -/
def AffineAt (bind : List Arr → Except String (List Arr)) (as : List Arr) : Prop :=
  ∃ (t : Ty) (A : NList as →L[ℝ] Space t) (c : Space t), ∀ᶠ y in 𝓝 (pt as), bind (put as y) = .ok [.num t (A y + c)]

/-- Near the inputs `as` the primitive computes a twice continuously differentiable function, with one result; and if the
result and some argument are complex, then all floating-point arguments are complex and the function is holomorphic. -/
def SmoothAt (bind : List Arr → Except String (List Arr)) (as : List Arr) : Prop :=
  ∃ (t : Ty) (F : NList as → Space t), ContDiffAt ℝ 2 F (pt as) ∧
    (∀ᶠ y in 𝓝 (pt as), bind (put as y) = .ok [.num t (F y)]) ∧
    (Ty.isCplx t = true → (∀ a ∈ as, Arr.isCplx a = false) ∨
      ((∀ a ∈ as, Arr.isReal a = false) ∧
        ∀ᶠ y in 𝓝 (pt as), ∀ v, fderiv ℝ F y (rotN as v) = rotS t (fderiv ℝ F y v)))

/-- Near the inputs `as` the results of the primitive do not depend on the floating-point inputs. -/
def ConstAt (bind : List Arr → Except String (List Arr)) (as : List Arr) : Prop :=
  ∃ outs, ∀ᶠ y in 𝓝 (pt as), bind (put as y) = .ok outs

variable {κ : Type} [Fintype κ]

/-- The value `v` carried by the transform describes the bundle of curves `γ`: a plain value says that the curves stay
constant for a while; a tracked value gives the common starting point, the velocities, and the sum of the second
derivatives. -/
def Describes (γ : κ → ℝ → Arr) : TVal κ → Prop
  | .plain a => ∀ k, ∀ᶠ s in 𝓝 (0 : ℝ), γ k s = a
  | .tracked t a => ∃ g : κ → ℝ → Space t, (∀ k, ∀ᶠ s in 𝓝 (0 : ℝ), γ k s = .num t (g k s)) ∧
      CurveLap g a.x a.jac a.lap

/-- The values `outs` describe what the (plain) computation `f` does along the curves `γs`, and their primal values are
`f` of the starting points. -/
def Follows (f : List Arr → Except String (List Arr)) (γs : List (κ → ℝ → Arr)) (start : List Arr) (outs : List (TVal κ)) :
    Prop :=
  f start = .ok (outs.map TVal.primal) ∧
    ∃ δs : List (κ → ℝ → Arr), List.Forall₂ Describes δs outs ∧
      ∀ k, ∀ᶠ s in 𝓝 (0 : ℝ), f (γs.map fun γ => γ k s) = .ok (δs.map fun δ => δ k s)

/-- A computation on carried values is a sound handler for the plain computation `f` on inputs satisfying `ok`. -/
def SoundFor (f : List Arr → Except String (List Arr)) (rule : List (TVal κ) → Except String (List (TVal κ)))
    (ok : List Arr → Prop) : Prop :=
  ∀ (γs : List (κ → ℝ → Arr)) (vs : List (TVal κ)), List.Forall₂ Describes γs vs → ok (vs.map TVal.primal) →
    ∀ outs, rule vs = .ok outs → Follows f γs (vs.map TVal.primal) outs

end Jaqmc.Laplacian.Spec
