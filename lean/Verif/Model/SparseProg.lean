import Verif.Model.SparseDot
/-!
Straight-line programs of tracked primitives (for C45), as the interpreter runs them (`eval_jaxpr_with_forward_laplacian`,
`src/jaqmc/laplacian/interpreter.py:112-165`): every equation reads earlier values and appends its result.

Equations without a tracked operand are not part of a program: their results are constants of the initial environment.
Each primitive has one result; a part of a split is a primitive of its own.
-/
namespace Jaqmc.Sparse
open Spec

/-- A primitive with its parameters.  Elementwise functions carry the derivatives that the nested `jvp` computes. -/
inductive Op (K : Type) where
  | unary (f f1 f2 : K → K)
  | neg
  | round (rnd : K → K)
  | component (f : K → K)
  | addSub (sub : Bool)
  | mul
  | div
  | rem (rem : K → K → K)
  | pow (pw pw1 pw2 : K → K → K)
  | pick (pick : K → K → K) (pred : K → K → Bool)
  | transpose (perm : List ℕ)
  | squeeze (dims : List ℕ)
  | rev (dims : List ℕ)
  | slice (start limit stride : List ℕ)
  | split (axis : ℕ) (sizes : List ℕ) (k : ℕ)
  | broadcastInDim (shape bdims : List ℕ)
  | reshape (new : List ℕ)
  | reduceSum (axes : List ℕ)
  | reducePick (red : Arr K → Arr K) (axes : List ℕ)
  | selectN (which : Arr ℕ)
  | concatenate (axis : ℕ)
  | gather (starts : Arr ℤ) (concrete : Bool) (g : GatherDims) (sizes : List ℕ) (mode : GatherMode) (fillv : K)
  | dot (d : DotDims)

section
variable {K : Type} [Field K]

/-- A handler of one tracked operand: the sparse branch, or the dense rule. -/
def onOne (sp : SLap K → Option (Val K)) (rule : DLap K → DLap K) : List (Val K) → Option (Val K)
  | [.sparse s] => sp s
  | [.dense d] => some (.dense (rule d))
  | _ => none

/-- A handler of two operands. -/
def onTwo (f : Val K → Val K → Option (Val K)) : List (Val K) → Option (Val K)
  | [l, r] => f l r
  | _ => none

open Classical in
/-- The dense rule of a primitive: what it does to value, Jacobian and Laplacian (`n`: number of input coordinates). -/
noncomputable def Op.rule (op : Op K) (n : ℕ) (Ds : List (DLap K)) : Option (DLap K) :=
  match op, Ds with
  | .unary f f1 f2, [D] => some (chain1 f f1 f2 D)
  | .neg, [D] => some (chain1 (fun x => -x) (fun _ => -1) (fun _ => 0) D)
  | .round rnd, [D] => some (chain1 rnd (fun _ => 0) (fun _ => 0) D)
  | .component f, [D] => some (linear (·.map f) D)
  | .addSub sub, [D, E] => some (chain2 (if sub then subF else addF) D E)
  | .mul, [D, E] => some (chain2 mulF D E)
  | .div, [D, E] => some (chain2 divF D E)
  | .rem rm, [D, E] => some (chain2 (remF rm) D E)
  | .pow pw pw1 pw2, [D, E] => some (chain2 (powF pw pw1 pw2) D E)
  | .pick pk pred, [D, E] => some (chain2 (pickF pk fun a b => pred a b = true) D E)
  | .transpose perm, [D] => some (linear (laxTranspose · perm) D)
  | .squeeze dims, [D] => some (linear (laxSqueeze · dims) D)
  | .rev dims, [D] => some (linear (laxRev · dims) D)
  | .slice start limit stride, [D] => some (linear (laxSlice · start limit stride) D)
  | .split axis sizes k, [D] => some (linear (fun A => ((laxSplit A axis 0 sizes)[k]?).getD A) D)
  | .broadcastInDim shape bdims, [D] => some (linear (laxBroadcastInDim · shape bdims) D)
  | .reshape new, [D] => some (linear (laxReshape · new) D)
  | .reduceSum axes, [D] => some (linear (laxReduceSum · axes) D)
  | .reducePick red axes, [D] => some (Spec.reducePick red axes D)
  | .selectN which, D :: Ds => some (linearN (Spec.selectN (which.map fun k => min k Ds.length) D.x.shape) n (D :: Ds))
  | .concatenate axis, D :: Ds => some (linearN (laxConcatenate · axis) n (D :: Ds))
  | .gather starts _ g sizes mode fillv, [D] =>
    some (affine (fun A => laxGather A starts g sizes mode fillv) (fun A => laxGather A starts g sizes mode 0) D)
  | .dot d, [D, E] => some (bilinear (laxDot · · d) D E)
  | _, _ => none

open Classical in
/-- Running the handler of a primitive on its operands (at least one tracked). -/
noncomputable def Op.run (op : Op K) (vs : List (Val K)) : Option (Val K) :=
  match op with
  | .unary f f1 f2 => onOne (fun s => (handleUnary f f1 f2 s).map .sparse) (chain1 f f1 f2) vs
  | .neg => onOne (fun s => (handleNeg s).map .sparse) (chain1 (fun x => -x) (fun _ => -1) (fun _ => 0)) vs
  | .round rnd => onOne (fun s => (handleRound rnd s).map .sparse) (chain1 rnd (fun _ => 0) (fun _ => 0)) vs
  | .component f => onOne (fun s => (handleComponent f s).map .sparse) (linear (·.map f)) vs
  | .addSub sub => onTwo (handleAddSub sub) vs
  | .mul => onTwo handleMul vs
  | .div => onTwo handleDiv vs
  | .rem rm => onTwo (fun l r => match r with
      | .plain _ => handleRem rm l r (dense2 (remF rm) l r)
      | _ => none) vs
  | .pow pw pw1 pw2 => onTwo (fun l r => match r with
      | .plain _ => handlePow pw pw1 pw2 l r (dense2 (powF pw pw1 pw2) l r)
      | _ => none) vs
  | .pick pk pred => onTwo (fun l r => handlePick pk pred l r (dense2 (pickF pk fun a b => pred a b = true) l r)) vs
  | .transpose perm => onOne (fun s => (handleTranspose perm s).map .sparse) (linear (laxTranspose · perm)) vs
  | .squeeze dims => onOne (fun s => (handleSqueeze dims s).map .sparse) (linear (laxSqueeze · dims)) vs
  | .rev dims => onOne (fun s => (handleRev dims s).map .sparse) (linear (laxRev · dims)) vs
  | .slice start limit stride => onOne (fun s => (handleSlice start limit stride s).map .sparse) (linear (laxSlice · start limit stride)) vs
  | .split axis sizes k => onOne (fun s => ((handleSplit axis sizes s).bind (·[k]?)).map .sparse)
      (linear (fun A => ((laxSplit A axis 0 sizes)[k]?).getD A)) vs
  | .broadcastInDim shape bdims => onOne (fun s => (handleBroadcastInDim shape bdims s).map .sparse) (linear (laxBroadcastInDim · shape bdims)) vs
  | .reshape new => onOne (handleReshape new) (linear (laxReshape · new)) vs
  | .reduceSum axes => onOne (handleReduceSum axes) (linear (laxReduceSum · axes)) vs
  | .reducePick red axes => onOne (handleReduceSelect red axes) (Spec.reducePick red axes) vs
  | .selectN which => handleSelectN which vs
  | .concatenate axis => handleConcatenate axis vs
  | .gather starts concrete g sizes mode fillv => onOne (handleGather starts concrete g sizes mode fillv)
      (affine (fun A => laxGather A starts g sizes mode fillv) (fun A => laxGather A starts g sizes mode 0)) vs
  | .dot d => onTwo (handleDot d) vs

/-- One equation: a primitive and the positions of its operands in the environment. -/
structure Eqn (K : Type) where
  op : Op K
  args : List ℕ

/-- Run the equations in order; the environment grows by one value per equation; `none`: an exception. -/
noncomputable def runProg : List (Eqn K) → List (Val K) → Option (List (Val K))
  | [], env => some env
  | e :: es, env => do
    let vs ← e.args.mapM (env[·]?)
    let v ← e.op.run vs
    runProg es (env ++ [v])

end
end Jaqmc.Sparse
