import Verif.Model.LaplacianControl
import Verif.Spec.LaplacianProg
/-!
Model of the seeding of tracked inputs, `src/jaqmc/laplacian/seed.py:66-121`, and of `forward_laplacian`,
`src/jaqmc/laplacian/interpreter.py:354-460`.
-/
namespace Jaqmc.Laplacian
open Spec

/-- The inputs of a call: the flag says whether the array goes through `make_laplacian_input` (tracked) or is passed as it
is (a constant of the differentiation). -/
abbrev Inputs := List (Bool × Arr)

/-- The arrays. -/
def leaves (ins : Inputs) : List Arr := ins.map Prod.snd

/-- One index for every element of every tracked floating-point input (`ravel_pytree`). -/
def SIdx : Inputs → Type
  | [] => Empty
  | (false, _) :: ins => SIdx ins
  | (true, .disc _ _) :: ins => SIdx ins
  | (true, .num t _) :: ins => Fin t.size ⊕ SIdx ins

instance instSIdxFintype : ∀ ins : Inputs, Fintype (SIdx ins)
  | [] => inferInstanceAs (Fintype Empty)
  | (false, _) :: ins => instSIdxFintype ins
  | (true, .disc _ _) :: ins => instSIdxFintype ins
  | (true, .num t _) :: ins => letI := instSIdxFintype ins; inferInstanceAs (Fintype (Fin t.size ⊕ SIdx ins))

/-- The input arrays' contents with element `k` equal to `w` and everything else 0 (a row of the identity matrix, or of
the diagonal matrix of the weights, seed.py:94-115). -/
noncomputable def dir : ∀ (ins : Inputs) (_ : SIdx ins) (_ : ℝ), NList (leaves ins)
  | (false, .num t _) :: ins, k, w => ((0 : Space t), dir ins k w)
  | (false, .disc _ _) :: ins, k, w => dir ins k w
  | (true, .disc _ _) :: ins, k, w => dir ins k w
  | (true, .num t _) :: ins, .inl i, w => (single t i w, (0 : NList (leaves ins)))
  | (true, .num t _) :: ins, .inr k, w => ((0 : Space t), dir ins k w)

variable {κ : Type}

/-- LapTuples with the given Jacobian rows and Laplacian 0 for the tracked inputs.  An integer leaf stays plain. -/
noncomputable def seedWith : ∀ (ins : Inputs) (_ : κ → NList (leaves ins)), List (TVal κ)
  | [], _ => []
  | (false, .num t v) :: ins, row => .plain (.num t v) :: seedWith ins fun k => (row k).2
  | (false, .disc n v) :: ins, row => .plain (.disc n v) :: seedWith ins row
  | (true, .disc n v) :: ins, row => .plain (.disc n v) :: seedWith ins row
  | (true, .num t v) :: ins, row => .tracked t ⟨v, fun k => (row k).1, 0⟩ :: seedWith ins fun k => (row k).2

/-- `make_laplacian_input(x, weights=w)` for the tracked inputs. -/
noncomputable def seeds (ins : Inputs) (w : SIdx ins → ℝ) : List (TVal (SIdx ins)) := seedWith ins fun k => dir ins k (w k)

/-- `forward_laplacian(fn)(*args)` on a traced program. -/
noncomputable def forwardLaplacian (ins : Inputs) (w : SIdx ins → ℝ) (p : Prog (SIdx ins)) :
    Except String (List (TVal (SIdx ins))) := p.runLap (seeds ins w)

end Jaqmc.Laplacian
