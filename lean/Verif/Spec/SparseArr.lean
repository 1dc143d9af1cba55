import Mathlib.Algebra.BigOperators.Group.Finset.Basic
import Mathlib.Algebra.Field.Basic
import Mathlib.Data.List.GetD
/-!
Multi-dimensional arrays and the JAX array primitives used by the sparse rules (for C45).

An array is a shape and a function from index tuples (`List ℕ`) to entries; only in-bounds entries mean anything.
Each primitive is defined by its documented meaning: which entries of the operands make up an entry of the result.
The typing checks that JAX makes before a primitive runs are not repeated here.
-/
namespace Jaqmc.Sparse

/-- An array of shape `shape`. -/
structure Arr (K : Type) where
  shape : List ℕ
  get : List ℕ → K

/-- `idx` is a valid index tuple for `shape`. -/
def InB (shape idx : List ℕ) : Prop :=
  idx.length = shape.length ∧ ∀ a, a < shape.length → idx.getD a 0 < shape.getD a 0

/-- Same shape and same entries. -/
def Arr.Same {K : Type} (A B : Arr K) : Prop :=
  A.shape = B.shape ∧ ∀ i, InB A.shape i → A.get i = B.get i

/-- Row-major position of an index tuple (NumPy `ravel_multi_index`). -/
def ravel : List ℕ → List ℕ → ℕ
  | _ :: s, i :: is => i * s.prod + ravel s is
  | _, _ => 0

/-- Index tuple of a row-major position (NumPy `unravel_index`). -/
def unravel : List ℕ → ℕ → List ℕ
  | [], _ => []
  | _ :: s, r => r / s.prod :: unravel s (r % s.prod)

section
variable {K : Type}

/-- Sum over all index tuples of a shape. -/
def sumIdx [AddCommMonoid K] : List ℕ → (List ℕ → K) → K
  | [], f => f []
  | n :: s, f => ∑ i ∈ Finset.range n, sumIdx s fun j => f (i :: j)

/-- One leading slice. -/
def Arr.at0 (A : Arr K) (s : ℕ) : Arr K := ⟨A.shape.tail, fun i => A.get (s :: i)⟩

/-- `jnp.stack` along axis 0. -/
def stack0 [Zero K] (As : List (Arr K)) : Arr K :=
  ⟨As.length :: (As.head?.map Arr.shape).getD [], fun i => ((As[i.headD 0]?).map fun A => A.get i.tail).getD 0⟩

/-- Elementwise function. -/
def Arr.map {L : Type} (f : K → L) (A : Arr K) : Arr L := ⟨A.shape, fun i => f (A.get i)⟩

/-- `jnp.full`. -/
def fullA (shape : List ℕ) (k : K) : Arr K := ⟨shape, fun _ => k⟩

/-! ### Broadcasting -/

/-- `jnp.broadcast_shapes` of two compatible shapes, on reversed shapes. -/
def bshapeRev : List ℕ → List ℕ → List ℕ
  | [], t => t
  | s, [] => s
  | a :: s, b :: t => (if a = 1 then b else a) :: bshapeRev s t

def bshape (s t : List ℕ) : List ℕ := (bshapeRev s.reverse t.reverse).reverse

/-- Where entry `idx` of the broadcast array comes from (right-aligned, size-1 axes repeat). -/
def bsrc (sh idx : List ℕ) : List ℕ :=
  (List.range sh.length).map fun a => if sh.getD a 0 = 1 then 0 else idx.getD (a + (idx.length - sh.length)) 0

/-- `jnp.broadcast_to`. -/
def Arr.bcast (A : Arr K) (shape : List ℕ) : Arr K := ⟨shape, fun i => A.get (bsrc A.shape i)⟩

/-- Elementwise binary function with NumPy broadcasting. -/
def binop {L M : Type} (f : K → L → M) (A : Arr K) (B : Arr L) : Arr M :=
  ⟨bshape A.shape B.shape, fun i => f (A.get (bsrc A.shape i)) (B.get (bsrc B.shape i))⟩

/-- `lax.broadcast_in_dim`. -/
def laxBroadcastInDim (A : Arr K) (shape bdims : List ℕ) : Arr K :=
  ⟨shape, fun i => A.get ((List.range A.shape.length).map fun a =>
    if A.shape.getD a 0 = 1 then 0 else i.getD (bdims.getD a 0) 0)⟩

/-! ### Shape primitives -/

/-- `lax.transpose`. -/
def laxTranspose (A : Arr K) (perm : List ℕ) : Arr K :=
  ⟨perm.map fun p => A.shape.getD p 0, fun i => A.get ((List.range perm.length).map fun a => i.getD (perm.idxOf a) 0)⟩

/-- The axes of `0 … n-1` that are not in `dims`. -/
def keptAxes (n : ℕ) (dims : List ℕ) : List ℕ := (List.range n).filter fun a => a ∉ dims

/-- The components of an index tuple at the axes that are not in `dims`. -/
def dropAxes (dims : List ℕ) (i : List ℕ) : List ℕ := (keptAxes i.length dims).map fun a => i.getD a 0

/-- `lax.squeeze`. -/
def laxSqueeze (A : Arr K) (dims : List ℕ) : Arr K :=
  ⟨dropAxes dims A.shape, fun i => A.get ((List.range A.shape.length).map fun a =>
    if a ∈ dims then 0 else i.getD (keptAxes a dims).length 0)⟩

/-- `lax.rev`. -/
def laxRev (A : Arr K) (dims : List ℕ) : Arr K :=
  ⟨A.shape, fun i => A.get ((List.range A.shape.length).map fun a =>
    if a ∈ dims then A.shape.getD a 0 - 1 - i.getD a 0 else i.getD a 0)⟩

/-- Number of entries of `start:limit:stride`. -/
def sliceLen (start limit stride : ℕ) : ℕ := (limit - start + (stride - 1)) / stride

/-- `lax.slice`. -/
def laxSlice (A : Arr K) (start limit stride : List ℕ) : Arr K :=
  ⟨(List.range A.shape.length).map fun a => sliceLen (start.getD a 0) (limit.getD a 0) (stride.getD a 1),
   fun i => A.get ((List.range A.shape.length).map fun a => start.getD a 0 + i.getD a 0 * stride.getD a 1)⟩

/-- `lax.split`: consecutive pieces along an axis, the first starting at `start`. -/
def laxSplit (A : Arr K) (axis : ℕ) : ℕ → List ℕ → List (Arr K)
  | _, [] => []
  | start, n :: ns => ⟨A.shape.set axis n, fun i => A.get (i.set axis (start + i.getD axis 0))⟩ :: laxSplit A axis (start + n) ns

/-- `lax.reshape`. -/
def laxReshape (A : Arr K) (sizes : List ℕ) : Arr K :=
  ⟨sizes, fun i => A.get (unravel A.shape (ravel sizes i))⟩

/-- Entry `i` of the concatenation of `As` along `axis`. -/
def concatGet [Zero K] (axis : ℕ) : List (Arr K) → List ℕ → K
  | [], _ => 0
  | A :: As, i =>
    if i.getD axis 0 < A.shape.getD axis 0 then A.get i
    else concatGet axis As (i.set axis (i.getD axis 0 - A.shape.getD axis 0))

/-- `lax.concatenate`. -/
def laxConcatenate [Zero K] (As : List (Arr K)) (axis : ℕ) : Arr K :=
  ⟨((As.head?.map Arr.shape).getD []).set axis ((As.map fun A => A.shape.getD axis 0).sum), concatGet axis As⟩

/-! ### Reductions and contractions -/

/-- `lax.reduce_sum`: an entry is the sum of the operand's entries with these kept coordinates. -/
def laxReduceSum [AddCommMonoid K] (A : Arr K) (axes : List ℕ) : Arr K :=
  ⟨dropAxes axes A.shape, fun i => sumIdx A.shape fun j => if dropAxes axes j = i then A.get j else 0⟩

/-- Dimension numbers of `lax.dot_general`. -/
structure DotDims where
  lc : List ℕ
  rc : List ℕ
  lb : List ℕ
  rb : List ℕ
  deriving DecidableEq

/-- Axes of an operand of rank `n` that are neither contracted nor batched. -/
def dotFree (n : ℕ) (contract batch : List ℕ) : List ℕ := (List.range n).filter fun a => a ∉ batch ++ contract

/-- The index tuple into an operand: contracted axes take `k`, batch axes the leading part of the output index, free axes
the part of the output index starting at `off`. -/
def dotSrc (n : ℕ) (contract batch : List ℕ) (off : ℕ) (i k : List ℕ) : List ℕ :=
  (List.range n).map fun a =>
    if a ∈ contract then k.getD (contract.idxOf a) 0
    else if a ∈ batch then i.getD (batch.idxOf a) 0
    else i.getD (off + (dotFree n contract batch).idxOf a) 0

/-- `lax.dot_general`: output axes are batch, free axes of the left operand, free axes of the right operand. -/
def laxDot [NonUnitalNonAssocSemiring K] (A B : Arr K) (d : DotDims) : Arr K :=
  let lf := dotFree A.shape.length d.lc d.lb
  let rf := dotFree B.shape.length d.rc d.rb
  ⟨d.lb.map (fun a => A.shape.getD a 0) ++ lf.map (fun a => A.shape.getD a 0) ++ rf.map (fun a => B.shape.getD a 0),
   fun i => sumIdx (d.lc.map fun a => A.shape.getD a 0) fun k =>
     A.get (dotSrc A.shape.length d.lc d.lb d.lb.length i k) *
     B.get (dotSrc B.shape.length d.rc d.rb (d.lb.length + lf.length) i k)⟩

/-! ### Gather -/

/-- Dimension numbers of `lax.gather`. -/
structure GatherDims where
  offset : List ℕ
  collapsed : List ℕ
  startMap : List ℕ
  opBatch : List ℕ
  ixBatch : List ℕ
  deriving DecidableEq

/-- `GatherScatterMode`: clamp the window into the operand (`CLIP`; also what `PROMISE_IN_BOUNDS` gives for windows that
are in bounds), or use the fill value for windows that leave the operand (`FILL_OR_DROP`). -/
inductive GatherMode where
  | clip
  | fill
  deriving DecidableEq

/-- Where output entry `i` of a gather comes from (`none`: the window is out of bounds in `fill` mode).  `rank` is the
rank of the output; `starts` are the start indices (last axis: index vector). -/
def gatherSrc (opShape : List ℕ) (starts : Arr ℤ) (g : GatherDims) (sizes : List ℕ) (mode : GatherMode) (rank : ℕ)
    (i : List ℕ) : Option (List ℕ) :=
  let batch := (keptAxes rank g.offset).map fun a => i.getD a 0
  let start : ℕ → ℤ := fun a => if a ∈ g.startMap then starts.get (batch ++ [g.startMap.idxOf a]) else 0
  let offAxes := keptAxes opShape.length (g.collapsed ++ g.opBatch)
  let off : ℕ → ℕ := fun a => if a ∈ offAxes then i.getD (g.offset.getD (offAxes.idxOf a) 0) 0 else 0
  -- position of the batch axis of the start indices among the batch axes of the output
  let bat : ℕ → ℕ := fun a => batch.getD (g.ixBatch.getD (g.opBatch.idxOf a) 0) 0
  let top : ℕ → ℤ := fun a => (opShape.getD a 0 : ℤ) - (sizes.getD a 0 : ℤ)
  match mode with
  | .clip => some ((List.range opShape.length).map fun a =>
      if a ∈ g.opBatch then bat a else (max 0 (min (start a) (top a))).toNat + off a)
  | .fill =>
    if ∀ a ∈ g.startMap, 0 ≤ start a ∧ start a ≤ top a then
      some ((List.range opShape.length).map fun a =>
        if a ∈ g.opBatch then bat a else (start a).toNat + off a)
    else none

/-- Output shape of `lax.gather`: offset axes have the sizes of the window axes, the others those of the start indices. -/
def gatherShape (opRank : ℕ) (startShape : List ℕ) (g : GatherDims) (sizes : List ℕ) : List ℕ :=
  let rank := g.offset.length + (startShape.length - 1)
  let offAxes := keptAxes opRank (g.collapsed ++ g.opBatch)
  (List.range rank).map fun a =>
    if a ∈ g.offset then sizes.getD (offAxes.getD (g.offset.idxOf a) 0) 0
    else startShape.getD (keptAxes a g.offset).length 0

/-- `lax.gather`. -/
def laxGather (A : Arr K) (starts : Arr ℤ) (g : GatherDims) (sizes : List ℕ) (mode : GatherMode) (fillv : K) : Arr K :=
  let oshape := gatherShape A.shape.length starts.shape g sizes
  ⟨oshape, fun i => match gatherSrc A.shape starts g sizes mode oshape.length i with
    | some j => A.get j
    | none => fillv⟩

end
end Jaqmc.Sparse
