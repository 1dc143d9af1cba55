import Verif.Spec.SparseDense
/-!
Model of the sparse Jacobian storage `src/jaqmc/laplacian/sparse.py` and of the shared sparse operations
`src/jaqmc/laplacian/primitives/sparse_ops.py` (for C45).

Simplifications: entries are elements of a field, so dtypes, rounding and infinities are not modelled; a Python exception
is `none`; logging is omitted.
-/
namespace Jaqmc.Sparse

/-- `OwnerRole` (sparse.py:55-91).  The constructor makes roles with one value constant (sparse.py:86-87). -/
structure OwnerRole where
  axis : Option ℕ
  values : List ℕ
  canon : values.length = 1 → axis = none
  deriving DecidableEq

/-- `OwnerRole(axis, values)` (sparse.py:74-91).  The check that a constant role has at most one value never fires: all
callers that pass `axis=None` pass `values[:1]` or one value. -/
def mkRole (axis : Option ℕ) (values : List ℕ) : OwnerRole :=
  ⟨if values.length = 1 then none else axis, values, fun h => if_pos h⟩

/-- The owner id of a role at an output entry: the entry of `values` broadcast over the factorized shape
(sparse.py:115-132, sparse_ops.py:151-167). -/
def OwnerRole.at (o : OwnerRole) (i : List ℕ) : ℕ :=
  match o.axis with
  | none => o.values.headD 0
  | some a => o.values.getD (i.getD a 0) 0

/-- `jnp.reshape(values, factorized_shape)` and the reshape of the one-hot selector raise exactly for a role without axis
and without values (sparse.py:115-132; sparse_ops.py:157-166). -/
def OwnerRole.reshapable (o : OwnerRole) : Bool := o.axis.isSome || !o.values.isEmpty

/-- `OwnerRole.reduce_output_axes` (sparse.py:93-113); `none`: not representable. -/
def OwnerRole.reduce (o : OwnerRole) (axes : List ℕ) : Option OwnerRole :=
  match o.axis with
  | none => some o
  | some a =>
    if a ∈ axes then
      if o.values.all fun v => [v] == o.values.take 1 then some (mkRole none (o.values.take 1)) else none
    else some (mkRole (some (a - axes.countP (· < a))) o.values)

/-- Moving the axis of a role: `owner if owner.axis is None else OwnerRole(f(owner.axis), owner.values)` (sparse_ops.py:71-73,
shape.py:55-59, 254-261). -/
def OwnerRole.mapAxis (f : ℕ → ℕ) (o : OwnerRole) : OwnerRole :=
  match o.axis with
  | none => o
  | some a => mkRole (some (f a)) o.values

/-- A sparse Jacobian: `Local1Jacobian` (one role) or `Local2Jacobian` (two roles) (sparse.py:253-268, 409-484).
`blocks` has shape `(slots, coords, *output_shape)`. -/
structure SJac (K : Type) where
  blocks : Arr K
  roles : List OwnerRole
  inShape : List ℕ
  ownAx : ℕ

variable {K : Type}

/-- `output_shape` (sparse.py:326-329). -/
def SJac.out (j : SJac K) : List ℕ := j.blocks.shape.drop 2

/-- `input_n_particles` (sparse.py:331-334). -/
def SJac.owners (j : SJac K) : ℕ := j.inShape.getD j.ownAx 0

/-- `input_coord_dim` (sparse.py:336-347). -/
def SJac.coords (j : SJac K) : ℕ := (j.inShape.eraseIdx j.ownAx).prod

/-- The checks of the constructor (sparse.py:271-319): the owner axis exists, the block prefix is `(slots, coords)`, there
are one or two roles, owner ids are in range, and every varying role has as many ids as its output axis has entries. -/
def SJac.valid (j : SJac K) : Bool :=
  j.ownAx < j.inShape.length &&
  j.blocks.shape.take 2 == [j.roles.length, j.coords] &&
  (j.roles.length == 1 || j.roles.length == 2) &&
  j.roles.all (fun o => o.values.all (· < j.owners)) &&
  j.roles.all (fun o => match o.axis with
    | none => true
    | some a => a < j.out.length && o.values.length == j.out.getD a 0)

/-- The constructor: raises when a check fails. -/
def mkSJac (blocks : Arr K) (roles : List OwnerRole) (inShape : List ℕ) (ownAx : ℕ) : Option (SJac K) :=
  let j : SJac K := ⟨blocks, roles, inShape, ownAx⟩
  if j.valid then some j else none

/-- `with_blocks` (sparse.py:353-367): the class, and so the number of roles, does not change. -/
def SJac.withBlocks (j : SJac K) (blocks : Arr K) (roles : List OwnerRole) : Option (SJac K) :=
  if roles.length = j.roles.length then mkSJac blocks roles j.inShape j.ownAx else none

/-- The index along the owner axis of dense row `r` (`_owner_rows_to_dense_basis`, sparse.py:373-408: unflatten the
coordinates, put the owner axis back in place, flatten). -/
def rowOwner (inShape : List ℕ) (ownAx r : ℕ) : ℕ := (unravel inShape r).getD ownAx 0

/-- The flattened position among the other input axes of dense row `r`. -/
def rowCoord (inShape : List ℕ) (ownAx r : ℕ) : ℕ := ravel (inShape.eraseIdx ownAx) ((unravel inShape r).eraseIdx ownAx)

/-- One dense row. -/
def SJac.row [Field K] (j : SJac K) (r : ℕ) : Arr K :=
  ⟨j.out, fun i => ∑ s ∈ Finset.range j.roles.length,
    (match j.roles[s]? with
      | none => 0
      | some o => if o.at i = rowOwner j.inShape j.ownAx r then 1 else 0) *
    j.blocks.get (s :: rowCoord j.inShape j.ownAx r :: i)⟩

/-- `to_dense` (sparse.py:427-440, 456-481): one-hot selectors times blocks, summed over the slots.  Raises when a
selector cannot be reshaped.  (A role without values can only be reshaped when there are no owners at all; that case is
treated as raising too.) -/
def SJac.toDense [Field K] (j : SJac K) : Option (ℕ → Arr K) :=
  if j.roles.all (·.reshapable) then some j.row else none

/-- A `LapTuple` with a sparse Jacobian (types.py:29-54). -/
structure SLap (K : Type) where
  x : Arr K
  jac : SJac K
  lap : Arr K

/-- What an argument of a handler can be: a plain array, a `LapTuple` with a dense Jacobian, or one with a sparse Jacobian
(types.py:139-141). -/
inductive Val (K : Type) where
  | plain (p : Arr K)
  | dense (d : DLap K)
  | sparse (s : SLap K)

/-- `LapTuple.to_dense` (types.py:117-137). -/
def SLap.expand [Field K] (s : SLap K) : Option (DLap K) :=
  (s.jac.toDense).map fun J => ⟨s.x, s.jac.inShape.prod, J, s.lap⟩

/-! ### Shared sparse operations (sparse_ops.py) -/

/-- `broadcast_sparse_jacobian` (sparse_ops.py:59-82). -/
def broadcastSJ (j : SJac K) (shape : List ℕ) : Option (SJac K) :=
  if j.out = shape then some j
  else
    let shift := shape.length - j.out.length
    j.withBlocks
      (laxBroadcastInDim j.blocks (j.blocks.shape.take 2 ++ shape)
        (0 :: 1 :: (List.range j.out.length).map fun a => a + shift + 2))
      (j.roles.map (·.mapAxis (· + shift)))

/-- `broadcast_sparse_laptuple` (sparse_ops.py:85-100). -/
def broadcastSL (s : SLap K) (shape : List ℕ) : Option (SLap K) :=
  (broadcastSJ s.jac shape).map fun j => ⟨s.x.bcast shape, j, s.lap.bcast shape⟩

/-- `compatible_sparse_metadata` (sparse_ops.py:118-122). -/
def compat (a b : SJac K) : Bool := a.inShape == b.inShape && a.ownAx == b.ownAx

/-- `zero_local_jacobian_like` (sparse_ops.py:139-148). -/
def zeroLike [Zero K] (j : SJac K) (shape : List ℕ) : Option (SJac K) := do
  let z ← j.withBlocks (fullA j.blocks.shape 0) j.roles
  if z.out = shape then some z else broadcastSJ z shape

/-- `owner_ids_equal_mask` (sparse_ops.py:151-167): where two roles name the same owner; raises when a role cannot be
reshaped. -/
def ownerMask (a b : OwnerRole) (shape : List ℕ) : Option (Arr Bool) :=
  if a.reshapable && b.reshapable then some ⟨shape, fun i => a.at i == b.at i⟩ else none

/-- `lift_local1_binary_to_local2` (sparse_ops.py:170-192). -/
def liftLocal2 [Ring K] (a b : SJac K) (sign : K) : Option (SJac K) :=
  if compat a b then
    mkSJac (stack0 [a.blocks.at0 0, (b.blocks.at0 0).map (sign * ·)]) (a.roles.take 1 ++ b.roles.take 1) a.inShape a.ownAx
  else none

/-- `scale_sparse_jacobian` (sparse_ops.py:207-232). -/
def scaleSJ [Ring K] (j : SJac K) (factor : Arr K) : Option (SJac K) :=
  let sh := bshape j.out factor.shape
  let f := laxReshape (factor.bcast sh) (1 :: 1 :: sh)
  let blocks := if j.out = sh then j.blocks
    else laxBroadcastInDim j.blocks (j.blocks.shape.take 2 ++ sh) (0 :: 1 :: (List.range j.out.length).map (· + 2))
  j.withBlocks (binop (· * ·) blocks f) j.roles

/-- `_sparse_trace_jac_jac_T_or_H` (sparse_ops.py:235-271) with `cj` the conjugation (or the identity): the sum of the
squares in all slots, plus twice the product of the two slots where they name the same owner.  Raises when a selector of a
`Local2` Jacobian cannot be reshaped. -/
def sparseTrace [Ring K] (cj : K → K) (j : SJac K) : Option (Arr K) :=
  let sq : ℕ → List ℕ → K := fun s i => ∑ c ∈ Finset.range j.coords, j.blocks.get (s :: c :: i) * cj (j.blocks.get (s :: c :: i))
  match j.roles with
  | [_] => some ⟨j.out, fun i => sq 0 i⟩
  | [a, b] =>
    if a.reshapable && b.reshapable then
      some ⟨j.out, fun i => sq 0 i + sq 1 i +
        if a.at i = b.at i then 2 * ∑ c ∈ Finset.range j.coords, j.blocks.get (0 :: c :: i) * cj (j.blocks.get (1 :: c :: i)) else 0⟩
    else none
  | _ => none

/-! ### Seeds -/

/-- `make_local1_seed_jacobian` (seed.py:19-64): coordinate numbers of the entries, one-hot over the coordinates, times the
weights. -/
def seedJac [Field K] (x w : Arr K) (ax : ℕ) : Option (SJac K) :=
  let coordShape := x.shape.eraseIdx ax
  let number : List ℕ → ℕ := fun i => ravel coordShape (i.eraseIdx ax)
  mkSJac ⟨1 :: coordShape.prod :: x.shape, fun t => (w.bcast x.shape).get t.tail.tail *
      if number t.tail.tail = t.tail.headD 0 then 1 else 0⟩
    [mkRole (some ax) (List.range (x.shape.getD ax 0))] x.shape ax

/-- `make_laplacian_input` with a sparse axis (seed.py:115-121). -/
def seedInput [Field K] (x w : Arr K) (ax : ℕ) : Option (SLap K) :=
  (seedJac x w ax).map fun j => ⟨x, j, fullA x.shape 0⟩

end Jaqmc.Sparse
