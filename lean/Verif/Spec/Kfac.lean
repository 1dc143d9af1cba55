import Verif.Model.Kfac
/-!
Vocabulary for the KFAC properties: multi-indices of arrays, the derivatives of the logarithm of the wavefunction with respect to the
parameters of a layer, and the matrix `Re S` of stochastic reconfiguration.
-/
namespace Jaqmc.Kfac.Spec

/-- All multi-indices of a shape. -/
def multi : List ℕ → List (List ℕ)
  | [] => [[]]
  | d :: sh => (List.range d).flatMap fun i => (multi sh).map fun j => i :: j

/-- Row-major position of a multi-index. -/
def ravel : List ℕ → List ℕ → ℕ
  | _ :: sh, i :: j => i * sh.prod + ravel sh j
  | _, _ => 0

/-- Entry of an array at a multi-index. -/
def entry {α : Type} (t : Tensor α) (i : List ℕ) : α := t.data (ravel t.shape i)

/-- Input features of a dense layer: `some j` is the entry `j` of the input axes, `none` the constant 1 that multiplies the bias. -/
noncomputable def feature (x : Tensor ℝ) (p : List ℕ) : Option (List ℕ) → ℝ
  | some j => entry x (p ++ j)
  | none => 1

/-- The features a layer has. -/
def IsFeature (bias : Bool) (ins : List ℕ) : Option (List ℕ) → Prop
  | some j => j ∈ multi ins
  | none => bias = true

/-- The row of the statistics that belongs to a feature: the bias is last. -/
def row (ins : List ℕ) : Option (List ℕ) → ℕ
  | some j => ravel ins j
  | none => ins.prod

/-- Mean over all positions of the leading axes. -/
noncomputable def mean (lead : List ℕ) (f : List ℕ → ℝ) : ℝ := ((multi lead).map f).sum / lead.prod

/-- The output of a dense layer applied at position `p` with weights `W` (feature, output); the bias is the weight of the feature `none`. -/
noncomputable def layer (bias : Bool) (ins : List ℕ) (x : Tensor ℝ) (W : Option (List ℕ) → List ℕ → ℝ) (p k : List ℕ) : ℝ :=
  ((multi ins).map fun j => feature x p (some j) * W (some j) k).sum + if bias then feature x p none * W none k else 0

/-- First-order change of the outputs, weighted with the derivatives `dy` of `log ψ` of walker `b` with respect to the outputs. -/
noncomputable def weighted (bias : Bool) (rest ins outs : List ℕ) (x : Tensor ℝ) (dy : Tensor ℂ) (b : ℕ) (W : Option (List ℕ) → List ℕ → ℝ) : ℂ :=
  ((multi rest).map fun p => ((multi outs).map fun k => entry dy (b :: p ++ k) * (layer bias ins x W (b :: p) k : ℂ)).sum).sum

/-- The derivative of `log ψ` of walker `b` with respect to the weight of feature `j` and output `k`. -/
noncomputable def derivative (rest : List ℕ) (x : Tensor ℝ) (dy : Tensor ℂ) (b : ℕ) (j : Option (List ℕ)) (k : List ℕ) : ℂ :=
  ((multi rest).map fun p => (feature x (b :: p) j : ℂ) * entry dy (b :: p ++ k)).sum

/-- An entry of `Re S`, from the derivatives of `log ψ` of the walkers with respect to two parameters. -/
noncomputable def reS (batch : ℕ) (O O' : ℕ → ℂ) : ℝ := ((∑ b ∈ Finset.range batch, (starRingEnd ℂ) (O b) * O' b) / batch).re

/-- The mean of statistics with weights: `new` of the step times the `old` of all later steps. -/
def weights : List (ℝ × ℝ) → List ℝ
  | [] => []
  | (_, new) :: l => (new * (l.map (·.1)).prod) :: weights l

end Jaqmc.Kfac.Spec
