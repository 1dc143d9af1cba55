import Verif.Model.SparseShape
/-!
Model of `dot_general`, `src/jaqmc/laplacian/primitives/dot_general.py` (for C45): the sparse branches and the dense ones.
-/
namespace Jaqmc.Sparse
open Spec

/-- `Side` (dot_general.py:37). -/
inductive Side where
  | lhs
  | rhs
  deriving DecidableEq

/-- `operand_ndim` (dot_general.py:185). -/
def Side.dim (s : Side) (l r : ℕ) : ℕ := match s with
  | .lhs => l
  | .rhs => r

/-- `contract_axes` (dot_general.py:77-79). -/
def DotDims.contract (d : DotDims) : Side → List ℕ
  | .lhs => d.lc
  | .rhs => d.rc

/-- `batch_axes` (dot_general.py:81-83). -/
def DotDims.batch (d : DotDims) : Side → List ℕ
  | .lhs => d.lb
  | .rhs => d.rb

/-- `output_axis` (dot_general.py:101-128). -/
def DotDims.outputAxis (d : DotDims) (side : Side) (a lhsDim rhsDim : ℕ) : Option ℕ :=
  if a ∈ d.contract side then none
  else if a ∈ d.batch side then some ((d.batch side).idxOf a)
  else match side with
    | .lhs => some (d.lb.length + (dotFree lhsDim d.lc d.lb).idxOf a)
    | .rhs => some (d.lb.length + (dotFree lhsDim d.lc d.lb).length + (dotFree rhsDim d.rc d.rb).idxOf a)

/-- `_map_owner_slots` for one role (dot_general.py:159-211): reduce over the contracted axes, then move the surviving axis
to its place in the output. -/
def dotRole (d : DotDims) (side : Side) (lhsDim rhsDim : ℕ) (o : OwnerRole) : Option OwnerRole := do
  let p ← o.reduce (d.contract side)
  match p.axis with
  | none => return p
  | some a =>
    -- `surviving_operand_axes` (dot_general.py:91-99)
    let orig ← (keptAxes (side.dim lhsDim rhsDim) (d.contract side))[a]?
    let out ← d.outputAxis side orig lhsDim rhsDim
    return mkRole (some out) p.values

/-- `_merge_owner_slots` (dot_general.py:214-252). -/
def dotMerge (ls rs : List OwnerRole) : Option (List OwnerRole × List ℕ × List ℕ) :=
  let p := outputSlots [] ls
  let q := outputSlots p.1 rs
  if 1 ≤ q.1.length ∧ q.1.length ≤ 2 then some (q.1, p.2, q.2) else none

section
variable {K : Type} [Field K]

/-- `jax.vmap(f)` over the leading axis (dot_general.py:320-346); all slices have one output shape. -/
def vmap0 (f : Arr K → Arr K) (A : Arr K) : Arr K :=
  ⟨A.shape.headD 0 :: (f (A.at0 0)).shape, fun i => (f (A.at0 (i.headD 0))).get i.tail⟩

/-- `_contract_leading_axis_dot_general` (dot_general.py:349-374): the leading axis is contracted together with the others. -/
def dotLead (A B : Arr K) (d : DotDims) : Arr K :=
  laxDot A B ⟨d.lc.map (· + 1) ++ [0], d.rc.map (· + 1) ++ [0], d.lb.map (· + 1), d.rb.map (· + 1)⟩

/-- A dense Jacobian as one array, the derivative basis leading. -/
def stackJac (D : DLap K) : Arr K := ⟨D.n :: D.x.shape, fun i => (D.jac (i.headD 0)).get i.tail⟩

/-- `_handle_dense_dot_general` (dot_general.py:377-482), also reached through `fallback_dense`. -/
def denseDot (d : DotDims) (l r : Val K) : Option (Val K) := do
  let n ← basisOf [l, r]
  let D ← l.lift n
  let E ← r.lift n
  match l, r with
  | .plain p, _ =>
    return .dense ⟨laxDot p E.x d, n, fun k => (vmap0 (laxDot p · d) (stackJac E)).at0 k, laxDot p E.lap d⟩
  | _, .plain q =>
    return .dense ⟨laxDot D.x q d, n, fun k => (vmap0 (laxDot · q d) (stackJac D)).at0 k, laxDot D.lap q d⟩
  | _, _ =>
    let J := binop (· + ·) (vmap0 (laxDot · E.x d) (stackJac D)) (vmap0 (laxDot D.x · d) (stackJac E))
    let mixed := dotLead (stackJac D) (stackJac E) d
    return .dense ⟨laxDot D.x E.x d, n, J.at0,
      binop (· + ·) (binop (· + ·) (laxDot D.lap E.x d) (laxDot D.x E.lap d)) (mixed.map (2 * ·))⟩

/-- `_handle_sparse_plain_dot` (dot_general.py:567-623); the inner `none` asks for the dense fallback. -/
def sparsePlainDot (d : DotDims) (side : Side) (s : SLap K) (p : Arr K) : Option (Option (SLap K)) :=
  let dot : Arr K → Arr K := fun A => match side with
    | .lhs => laxDot A p d
    | .rhs => laxDot p A d
  let lhsDim := side.dim s.x.shape.length p.shape.length
  let rhsDim := side.dim p.shape.length s.x.shape.length
  let layout := do
    let ms ← s.jac.roles.mapM (dotRole d side lhsDim rhsDim)
    match side with
    | .lhs => dotMerge ms []
    | .rhs => dotMerge [] ms
  match layout with
  | none => some none
  | some (owners, ls, rs) => do
    let y := dot s.x
    let slots := match side with | .lhs => ls | .rhs => rs
    let out := accumulate (fun k => vmap0 dot (s.jac.blocks.at0 k)) 0 slots (fullA (owners.length :: s.jac.coords :: y.shape) 0)
    return some ⟨y, ← mkSJac out owners s.jac.inShape s.jac.ownAx, dot s.lap⟩

/-- The mixed trace over all pairs of slots (dot_general.py:681-699): `A s` and `B t` are the blocks of the input slots,
`ls` and `rs` their output slots. -/
def mixedTrace (d : DotDims) (owners : List OwnerRole) (sh : List ℕ) (A B : ℕ → Arr K) (ls rs : List ℕ) : Option (Arr K) :=
  (List.range ls.length).foldlM (fun acc s => (List.range rs.length).foldlM (fun acc t => do
    let o ← owners[ls.getD s 0]?
    let p ← owners[rs.getD t 0]?
    let m ← ownerMask o p sh
    return binop (· + ·) acc (maskA m (dotLead (A s) (B t) d))) acc) (fullA sh 0)

/-- `_handle_sparse_sparse_dot` (dot_general.py:626-710). -/
def sparseSparseDot (d : DotDims) (a b : SLap K) : Option (Option (SLap K)) := do
  if ¬ compat a.jac b.jac then none
  let layout := do
    let ml ← a.jac.roles.mapM (dotRole d .lhs a.x.shape.length b.x.shape.length)
    let mr ← b.jac.roles.mapM (dotRole d .rhs a.x.shape.length b.x.shape.length)
    dotMerge ml mr
  match layout with
  | none => return none
  | some (owners, ls, rs) =>
    let y := laxDot a.x b.x d
    let zero := fullA (owners.length :: a.jac.coords :: y.shape) 0
    let out := accumulate (fun k => vmap0 (laxDot a.x · d) (b.jac.blocks.at0 k)) 0 rs
      (accumulate (fun k => vmap0 (laxDot · b.x d) (a.jac.blocks.at0 k)) 0 ls zero)
    let mixed ← mixedTrace d owners y.shape a.jac.blocks.at0 b.jac.blocks.at0 ls rs
    return some ⟨y, ← mkSJac out owners a.jac.inShape a.jac.ownAx,
      binop (· + ·) (binop (· + ·) (laxDot a.lap b.x d) (laxDot a.x b.lap d)) (mixed.map (2 * ·))⟩

/-- `handle_dot_general` with at least one tracked operand (dot_general.py:713-785). -/
def handleDot (d : DotDims) (l r : Val K) : Option (Val K) :=
  let finish : Option (Option (SLap K)) → Option (Val K) := fun res => do
    match ← res with
    | some v => return .sparse v
    | none => denseDot d l r
  match l, r with
  | .sparse a, .sparse b => finish (sparseSparseDot d a b)
  | .sparse a, .plain p => finish (sparsePlainDot d .lhs a p)
  | .plain p, .sparse b => finish (sparsePlainDot d .rhs b p)
  | _, _ => denseDot d l r

end
end Jaqmc.Sparse
