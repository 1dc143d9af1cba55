import Verif.Model.CustomLap
import Verif.Spec.Laplacian
/-! Vocabulary for functions with a handwritten Laplacian rule. -/
namespace Jaqmc.CustomLap.Spec
open Jaqmc.CustomLap Jaqmc.Laplacian.Spec
open Jaqmc.Sparse (InB)

/-- The triple carries value, derivatives in `K` directions and Laplacian of every entry of the array `f` at `p`. -/
def Carries {P : Type} [AddCommGroup P] [Module ℝ P] {K : ℕ} (p : P) (dir : Fin K → P) (f : P → RArr) (t : Triple) : Prop :=
  (∀ y, (f y).shape = t.x.shape) ∧ t.jac.shape = K :: t.x.shape ∧ t.lap.shape = t.x.shape ∧
    ∀ i, InB t.x.shape i → IsLaplacian p dir (fun y => (f y).get i) (t.x.get i) (fun r => t.jac.get (r.val :: i)) (t.lap.get i)

/-- What an argument says about `f`. -/
def ArgCarries {P : Type} [AddCommGroup P] [Module ℝ P] {K : ℕ} (p : P) (dir : Fin K → P) (f : P → RArr) : Arg → Prop
  | .plain x => ∀ y, f y = x
  | .dense t => Carries p dir f t
  | .sparse t => Carries p dir f t

/-- The results carry all outputs of `g`. -/
def OutsCarry {P : Type} [AddCommGroup P] [Module ℝ P] {K : ℕ} (p : P) (dir : Fin K → P) (g : P → List RArr) (outs : List Triple) : Prop :=
  (∀ y, (g y).length = outs.length) ∧
    ∀ (o : ℕ) (h : o < outs.length), Carries p dir (fun y => (g y).getD o ⟨[], fun _ => 0⟩) outs[o]

/-- The rule is right for `fn` on arguments of given kinds and shapes: whenever the arguments carry `fs`, the answer carries `fn ∘ fs`. -/
def Correct (fn : Fn) (rule : Rule) (sigs : List Sig) : Prop :=
  ∀ run, rule sigs = some run → ∀ (P : Type) [AddCommGroup P] [Module ℝ P] (K : ℕ) (p : P) (dir : Fin K → P) (fs : List (P → RArr)) (args : List Arg),
    args.map (·.sig) = sigs → List.Forall₂ (ArgCarries p dir) fs args → OutsCarry p dir (fun y => fn (fs.map (· y))) (run args)

/-- Output shapes depend on input shapes only (as for every traced function). -/
def ShapeStatic (fn : Fn) : Prop := ∀ l l' : List RArr, l.map (·.shape) = l'.map (·.shape) → (fn l).map (·.shape) = (fn l').map (·.shape)

/-- The mapped axes exist and have the same positive size, from the outermost `vmap` to the innermost, and no mapped argument is sparse. -/
def Fits : List Dims → List Sig → Prop
  | [], _ => True
  | d :: ds, sigs => (∃ N, 0 < N ∧ (∃ k, some k ∈ d) ∧ List.Forall₂ (fun a s => ∀ k, a = some k → s.1 ≠ .sparse ∧ s.2[k]? = some N) d sigs) ∧
      Fits ds (List.zipWith sliceSig d sigs)

/-- `jax.vmap` nested, the first dims being the innermost. -/
def nestedVmap (dims : List Dims) (fn : Fn) : Fn := dims.foldl (fun f d => vmapFn d f) fn

/-- The rule last registered for a function. -/
def lastRule (id : ℕ) (ops : List Op) : Option Rule :=
  (ops.filterMap fun o => match o with | .decorate => none | .define i r => if i = id then some r else none).getLast?

/-- The calls a program makes, each with the number of `with` blocks around it, and whether it ends by an exception. -/
def depths : Prog → ℕ → List ℕ × Bool
  | .done, _ => ([], false)
  | .raise, _ => ([], true)
  | .call k, d => (d :: (depths k d).1, (depths k d).2)
  | .within b k, d => if (depths b (d + 1)).2 then depths b (d + 1) else ((depths b (d + 1)).1 ++ (depths k d).1, (depths k d).2)

end Jaqmc.CustomLap.Spec
