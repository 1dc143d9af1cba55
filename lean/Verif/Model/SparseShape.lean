import Verif.Model.SparseArith
/-!
Model of the sparse branches of the shape, reduction, selection and indexing handlers,
`src/jaqmc/laplacian/primitives/{shape,reductions,selection,indexing}.py` (for C45).

Axes are canonical (non-negative), as in every jaxpr; the code's normalisation of negative axes is not modelled.
-/
namespace Jaqmc.Sparse
open Spec

section
variable {K : Type} [Field K]

/-! ### One operand, entries moved around (shape.py) -/

/-- `handle_transpose` on a sparse argument (shape.py:45-69). -/
def handleTranspose (perm : List ℕ) (s : SLap K) : Option (SLap K) := do
  let j ← s.jac.withBlocks (laxTranspose s.jac.blocks (0 :: 1 :: perm.map (· + 2))) (s.jac.roles.map (·.mapAxis perm.idxOf))
  return ⟨laxTranspose s.x perm, j, laxTranspose s.lap perm⟩

/-- `_squeeze_owner_role` (shape.py:72-83). -/
def squeezeRole (dims : List ℕ) (o : OwnerRole) : OwnerRole :=
  match o.axis with
  | none => o
  | some a => if a ∈ dims then mkRole none (o.values.take 1) else mkRole (some (a - dims.countP (· < a))) o.values

/-- `handle_squeeze` on a sparse argument (shape.py:86-126). -/
def handleSqueeze (dims : List ℕ) (s : SLap K) : Option (SLap K) := do
  let j ← s.jac.withBlocks (laxSqueeze s.jac.blocks (dims.map (· + 2))) (s.jac.roles.map (squeezeRole dims))
  return ⟨laxSqueeze s.x dims, j, laxSqueeze s.lap dims⟩

/-- The owner transform of `handle_rev` (shape.py:147-151). -/
def revRole (dims : List ℕ) (o : OwnerRole) : OwnerRole :=
  match o.axis with
  | none => o
  | some a => if a ∈ dims then mkRole (some a) o.values.reverse else o

/-- `handle_rev` on a sparse argument (shape.py:129-155). -/
def handleRev (dims : List ℕ) (s : SLap K) : Option (SLap K) := do
  let j ← s.jac.withBlocks (laxRev s.jac.blocks (dims.map (· + 2))) (s.jac.roles.map (revRole dims))
  return ⟨laxRev s.x dims, j, laxRev s.lap dims⟩

/-- Python's `values[start:limit:stride]`. -/
def pySlice (vs : List ℕ) (start limit stride : ℕ) : List ℕ :=
  (List.range (sliceLen start (min limit vs.length) stride)).map fun k => vs.getD (start + k * stride) 0

/-- `_slice_owner_role` (shape.py:158-170). -/
def sliceRole (start limit stride : List ℕ) (o : OwnerRole) : OwnerRole :=
  match o.axis with
  | none => o
  | some a => mkRole (some a) (pySlice o.values (start.getD a 0) (limit.getD a 0) (stride.getD a 1))

/-- `_slice_sparse_jacobian` (shape.py:173-201). -/
def sliceSJ (start limit stride : List ℕ) (j : SJac K) : Option (SJac K) :=
  j.withBlocks (laxSlice j.blocks (0 :: 0 :: start) (j.blocks.shape.take 2 ++ limit) (1 :: 1 :: stride))
    (j.roles.map (sliceRole start limit stride))

/-- `handle_slice` on a sparse argument (shape.py:204-232); absent strides are all ones. -/
def handleSlice (start limit stride : List ℕ) (s : SLap K) : Option (SLap K) := do
  return ⟨laxSlice s.x start limit stride, ← sliceSJ start limit stride s.jac, laxSlice s.lap start limit stride⟩

/-- The Jacobian parts of `handle_split` (shape.py:246-268): `start` is the running offset. -/
def splitSJ (axis : ℕ) (j : SJac K) : ℕ → List ℕ → Option (List (SJac K))
  | _, [] => some []
  | start, n :: ns => do
    let z := List.replicate j.out.length 0
    let p ← sliceSJ (z.set axis start) (j.out.set axis (start + n)) (List.replicate j.out.length 1) j
    return p :: (← splitSJ axis j (start + n) ns)

/-- `handle_split` on a sparse argument (shape.py:235-273). -/
def handleSplit (axis : ℕ) (sizes : List ℕ) (s : SLap K) : Option (List (SLap K)) := do
  let js ← splitSJ axis s.jac 0 sizes
  return ((laxSplit s.x axis 0 sizes).zip (js.zip (laxSplit s.lap axis 0 sizes))).map fun t => ⟨t.1, t.2.1, t.2.2⟩

/-- `handle_broadcast_in_dim` on a sparse argument (shape.py:276-350). -/
def handleBroadcastInDim (shape bdims : List ℕ) (s : SLap K) : Option (SLap K) := do
  let j ← s.jac.withBlocks (laxBroadcastInDim s.jac.blocks (s.jac.blocks.shape.take 2 ++ shape) (0 :: 1 :: bdims.map (· + 2)))
    (s.jac.roles.map (·.mapAxis fun a => bdims.getD a 0))
  return ⟨laxBroadcastInDim s.x shape bdims, j, laxBroadcastInDim s.lap shape bdims⟩

/-- `_reshape_owner_role` (shape.py:353-377); `none`: not representable. -/
def reshapeRole (old new : List ℕ) (o : OwnerRole) : Option OwnerRole :=
  match o.axis with
  | none => some o
  | some a =>
    match (List.range new.length).filter fun b =>
        (new.take b).prod == (old.take a).prod && new.getD b 0 == o.values.length && (new.drop (b + 1)).prod == (old.drop (a + 1)).prod with
    | [b] => some (mkRole (some b) o.values)
    | _ => none

/-- The dense fallback of a linear handler with one operand. -/
def denseLinear (p q : Arr K → Arr K) (s : SLap K) : Option (Val K) := do
  let D ← s.expand
  return .dense (affine p q D)

/-- `handle_reshape` on a sparse argument, `dimensions` absent or the identity (shape.py:380-428). -/
def handleReshape (new : List ℕ) (s : SLap K) : Option (Val K) :=
  match s.jac.roles.mapM (reshapeRole s.jac.out new) with
  | none => denseLinear (laxReshape · new) (laxReshape · new) s
  | some roles => do
    let j ← s.jac.withBlocks (laxReshape s.jac.blocks (s.jac.blocks.shape.take 2 ++ new)) roles
    return .sparse ⟨laxReshape s.x new, j, laxReshape s.lap new⟩

/-! ### Concatenation (shape.py:431-608) -/

/-- `_concatenate_owner_role` (shape.py:431-462).  Outer `none`: `owner.values[0]` raises; inner `none`: not representable. -/
def concatRole (axis : ℕ) (os : List OwnerRole) (sizes : List ℕ) : Option (Option OwnerRole) :=
  match os with
  | [] => some none
  | o₀ :: rest =>
    if os.all (·.axis.isNone) && rest.all (· == o₀) then some (some o₀)
    else if os.all (fun o => o.axis.isNone || o.axis == some axis) then do
      let parts ← (os.zip sizes).mapM fun p =>
        if p.1.axis = some axis then some p.1.values else p.1.values.head?.map fun v => List.replicate p.2 v
      return some (mkRole (some axis) parts.flatten)
    else if os.all (·.axis != some axis) then some (if rest.all (· == o₀) then some o₀ else none)
    else some none

/-- `_concatenate_owner_roles` (shape.py:465-484). -/
def concatRoles (axis : ℕ) (oss : List (List OwnerRole)) (sizes : List ℕ) : Option (Option (List OwnerRole)) :=
  let count := (oss.headD []).length
  if oss.any (·.length != count) then some none
  else do
    let rs ← (List.range count).mapM fun k => concatRole axis (oss.filterMap (·[k]?)) sizes
    return rs.mapM id

/-- The segments of a concatenation: the array and its Jacobian, if tracked. -/
def Val.seg : Val K → Option (Arr K × Option (SJac K) × Arr K)
  | .plain p => some (p, none, fullA p.shape 0)
  | .dense _ => none
  | .sparse s => some (s.x, some s.jac, s.lap)

/-- `_concatenate_sparse_jacobians` (shape.py:487-534); plain segments have zero blocks and the owners of the first sparse
segment.  Outer `none`: raises. -/
def concatSJ (axis : ℕ) (segs : List (Arr K × Option (SJac K) × Arr K)) : Option (Option (SJac K)) := do
  let t ← (segs.filterMap (·.2.1)).head?
  if (segs.filterMap (·.2.1)).any (fun j => j.roles.length != t.roles.length || !compat j t) then none
  let blocks := segs.map fun g => match g.2.1 with
    | some j => j.blocks
    | none => fullA (t.roles.length :: t.coords :: g.1.shape) 0
  let owners := segs.map fun g => match g.2.1 with
    | some j => j.roles
    | none => t.roles
  match ← concatRoles axis owners (segs.map fun g => g.1.shape.getD axis 0) with
  | none => return none
  | some roles => return some (← t.withBlocks (laxConcatenate blocks (axis + 2)) roles)

/-- The dense fallback of a linear handler with several operands. -/
def denseLinearN (p : List (Arr K) → Arr K) (vs : List (Val K)) : Option (Val K) := do
  let n ← basisOf vs
  let Ds ← vs.mapM (Val.lift n)
  return .dense (linearN p n Ds)

/-- `handle_concatenate` with at least one sparse operand (shape.py:537-612). -/
def handleConcatenate (axis : ℕ) (vs : List (Val K)) : Option (Val K) :=
  let dense := denseLinearN (laxConcatenate · axis) vs
  match vs.mapM Val.seg with
  | none => dense
  | some segs =>
    let js := segs.filterMap (·.2.1)
    if js.all (·.roles.length == 2) || js.all (·.roles.length == 1) then do
      match ← concatSJ axis segs with
      | none => dense
      | some j => return .sparse ⟨laxConcatenate (segs.map (·.1)) axis, j, laxConcatenate (segs.map (·.2.2)) axis⟩
    else dense

/-! ### Reductions (reductions.py) -/

/-- `handle_reduce_sum` on a sparse argument (reductions.py:25-63). -/
def handleReduceSum (axes : List ℕ) (s : SLap K) : Option (Val K) :=
  match s.jac.roles.mapM (·.reduce axes) with
  | some roles => do
    let j ← s.jac.withBlocks (laxReduceSum s.jac.blocks (axes.map (· + 2))) roles
    return .sparse ⟨laxReduceSum s.x axes, j, laxReduceSum s.lap axes⟩
  | none => denseLinear (laxReduceSum · axes) (laxReduceSum · axes) s

/-- `_broadcast_reduced_to_operand` (reductions.py:66-75). -/
def broadcastReduced {L : Type} (y : Arr L) (shape axes : List ℕ) : Arr L :=
  (laxReshape y ((List.range shape.length).map fun a => if a ∈ axes then 1 else shape.getD a 0)).bcast shape

/-- `_handle_reduce_select` on a sparse argument (reductions.py:78-125); `red` is `reduce_max` or `reduce_min`. -/
def handleReduceSelect [DecidableEq K] (red : Arr K → Arr K) (axes : List ℕ) (s : SLap K) : Option (Val K) :=
  let y := red s.x
  let mask : Arr K := binop (fun u v => if u = v then 1 else 0) s.x (broadcastReduced y s.x.shape axes)
  let count := broadcastReduced (laxReduceSum mask axes) s.x.shape axes
  let weight := binop (· / ·) mask count
  let lap := laxReduceSum (binop (· * ·) weight s.lap) axes
  match s.jac.roles.mapM (·.reduce axes) with
  | some roles => do
    let blocks := laxReduceSum (binop (· * ·) s.jac.blocks (laxReshape weight (1 :: 1 :: s.jac.out))) (axes.map (· + 2))
    return .sparse ⟨y, ← s.jac.withBlocks blocks roles, lap⟩
  | none => do
    let J ← s.jac.toDense
    return .dense ⟨y, s.jac.inShape.prod, fun r => laxReduceSum (binop (· * ·) (J r) weight) axes, lap⟩

/-! ### Selection (selection.py) -/

/-- `_handle_pointwise_select` (selection.py:32-108): `pred` is `≥` for `max` and `≤` for `min`, `pick` is `max` or `min`.
The weight of the only tracked operand is the comparison itself; two tracked operands share a tie equally. -/
def handlePick [DecidableEq K] (pick : K → K → K) (pred : K → K → Bool) (l r : Val K) (dense : Option (Val K)) : Option (Val K) :=
  match l, r with
  | .sparse a, .plain p => do
    let (s, q) ← toCommon a p
    let m := binop pred s.x q
    return .sparse ⟨binop pick s.x q, ← scaleSJ s.jac (m.map fun b => if b then 1 else 0), maskA m s.lap⟩
  | .plain p, .sparse a => do
    let (s, q) ← toCommon a p
    let m := binop pred s.x q
    return .sparse ⟨binop pick q s.x, ← scaleSJ s.jac (m.map fun b => if b then 1 else 0), maskA m s.lap⟩
  | .sparse a₀, .sparse b₀ =>
    if a₀.jac.roles = b₀.jac.roles then do
      let sh := bshape a₀.jac.out b₀.jac.out
      let a ← broadcastSL a₀ sh
      let b ← broadcastSL b₀ sh
      let wl := binop (fun u v => if u = v then (1 / 2 : K) else if pred u v then 1 else 0) a.x b.x
      let wr := binop (fun u v => if u = v then (1 / 2 : K) else if pred u v then 0 else 1) a.x b.x
      let f := fun (w : Arr K) => laxReshape w (1 :: 1 :: sh)
      let j ← a.jac.withBlocks (binop (· + ·) (binop (· * ·) (f wl) a.jac.blocks) (binop (· * ·) (f wr) b.jac.blocks)) a.jac.roles
      return .sparse ⟨binop pick a.x b.x, j, binop (· + ·) (binop (· * ·) wl a.lap) (binop (· * ·) wr b.lap)⟩
    else dense
  | _, _ => dense

/-- `jnp.where`. -/
def whereA {L : Type} (m : Arr Bool) (A B : Arr L) : Arr L :=
  let sh := bshape m.shape (bshape A.shape B.shape)
  ⟨sh, fun i => if (m.bcast sh).get i then (A.bcast sh).get i else (B.bcast sh).get i⟩

/-- `select_case` of `handle_select_n` (selection.py:184-198). -/
def selectCase (sel case : SLap K) (picks : Arr Bool) : Option (SLap K) := do
  let mask := laxReshape (picks.bcast sel.x.shape) (1 :: 1 :: sel.x.shape)
  let j ← sel.jac.withBlocks (whereA mask case.jac.blocks sel.jac.blocks) sel.jac.roles
  return ⟨whereA picks case.x sel.x, j, whereA picks case.lap sel.lap⟩

/-- The fold over the cases (selection.py:200-203). -/
def selectFold (which : Arr ℕ) : ℕ → SLap K → List (SLap K) → Option (SLap K)
  | _, sel, [] => some sel
  | k, sel, c :: cs => do selectFold which (k + 1) (← selectCase sel c (which.map (· == k))) cs

/-- Broadcast one case of `select_n`; plain cases get zero derivatives (selection.py:149-181). -/
def selectPrep (zeros : SJac K) (sh : List ℕ) : Val K → Option (SLap K)
  | .plain p => some ⟨p.bcast sh, zeros, fullA sh 0⟩
  | .dense _ => none
  | .sparse s => broadcastSL s sh

/-- The sparse cases. -/
def sparsesOf (vs : List (Val K)) : List (SLap K) := vs.filterMap fun v => match v with
  | .sparse s => some s
  | _ => none

/-- The array of an operand. -/
def Val.arr : Val K → Arr K
  | .plain p => p
  | .dense d => d.x
  | .sparse s => s.x

/-- `handle_select_n` with at least one tracked case (selection.py:111-204).  `which` is the selector, already stripped of
derivatives; clipping is `min … (cases - 1)`. -/
def handleSelectN (which : Arr ℕ) (vs : List (Val K)) : Option (Val K) :=
  let clipped := which.map fun k => min k (vs.length - 1)
  let sh := (vs.map fun v => v.arr.shape).foldl bshape []
  let dense := denseLinearN (selectN clipped sh) vs
  if vs.any (fun v => match v with | .dense _ => true | _ => false) then dense
  else
    match sparsesOf vs with
    | [] => none
    | t :: rest =>
      if rest.all fun c => c.jac.roles.length == t.jac.roles.length && c.jac.roles == t.jac.roles && compat c.jac t.jac then do
        let zeros ← zeroLike t.jac sh
        match ← vs.mapM (selectPrep zeros sh) with
        | [] => none
        | c :: cs => return .sparse (← selectFold clipped 1 c cs)
      else dense

end

/-! ### Gather (indexing.py) -/

/-- All index tuples of a shape. -/
def allIdx : List ℕ → List (List ℕ)
  | [] => [[]]
  | n :: s => (List.range n).flatMap fun k => (allIdx s).map (k :: ·)

/-- `_factorize_gathered_owner_labels` (indexing.py:28-61); `labels` are the gathered owner ids, `none` the `-1` of a window
that is filled.  The three cases of the code: nothing valid, one owner everywhere, owner selected by one output axis. -/
def factorizeLabels (shape : List ℕ) (labels : List ℕ → Option ℕ) : Option OwnerRole :=
  if 0 ∈ shape then none
  else
    match (allIdx shape).filterMap labels with
    | [] => some (mkRole none [0])
    | v :: _ =>
      if (allIdx shape).all fun i => labels i == none || labels i == some v then some (mkRole none [v])
      else
        (List.range shape.length).findSome? fun a =>
          let values := (List.range (shape.getD a 0)).map fun k =>
            -- the largest valid label of the row, or the fallback owner
            (((allIdx shape).filter fun i => i.getD a 0 == k).filterMap labels).foldl (fun m x => some (max (m.getD 0) x)) none |>.getD v
          if (allIdx shape).all fun i => labels i == none || labels i == some (values.getD (i.getD a 0) 0) then
            some (mkRole (some a) values) else none

/-- `_remap_gather_owner_role` (indexing.py:64-114); `concrete` says whether the start indices are known.  `none`: not
representable. -/
def gatherRole (opShape : List ℕ) (starts : Arr ℤ) (concrete : Bool) (g : GatherDims) (sizes : List ℕ) (mode : GatherMode)
    (o : OwnerRole) : Option OwnerRole :=
  let oshape := gatherShape opShape.length starts.shape g sizes
  if concrete then
    match o.axis with
    | none => some o
    | some _ => factorizeLabels oshape fun i => (gatherSrc opShape starts g sizes mode oshape.length i).map o.at
  else if o.values = [] then none
  else
    match o.axis with
    | none => some (mkRole none (o.values.take 1))
    | some a =>
      if o.values.all (· == o.values.headD 0) then some (mkRole none (o.values.take 1))
      else if a ∈ g.startMap then none
      else if a ∈ g.opBatch then none
      else if a ∈ g.collapsed then some (mkRole none (o.values.take 1))
      else
        let retained := keptAxes opShape.length (g.collapsed ++ g.opBatch)
        some (mkRole (some (g.offset.getD (retained.idxOf a) 0)) (o.values.take (sizes.getD a 0)))

/-- The dimension numbers of the gather of blocks (indexing.py:121-131). -/
def GatherDims.blocks (g : GatherDims) : GatherDims :=
  ⟨0 :: 1 :: g.offset.map (· + 2), g.collapsed.map (· + 2), g.startMap.map (· + 2), g.opBatch.map (· + 2), g.ixBatch⟩

/-- `handle_gather` on a sparse operand and plain start indices (indexing.py:145-204). -/
def handleGather {K : Type} [Field K] (starts : Arr ℤ) (concrete : Bool) (g : GatherDims) (sizes : List ℕ) (mode : GatherMode) (fillv : K)
    (s : SLap K) : Option (Val K) :=
  match s.jac.roles.mapM (gatherRole s.x.shape starts concrete g sizes mode) with
  | none => denseLinear (fun A => laxGather A starts g sizes mode fillv) (fun A => laxGather A starts g sizes mode 0) s
  | some roles => do
    let blocks := laxGather s.jac.blocks starts g.blocks (s.jac.blocks.shape.take 2 ++ sizes) mode 0
    return .sparse ⟨laxGather s.x starts g sizes mode fillv, ← s.jac.withBlocks blocks roles, laxGather s.lap starts g sizes mode 0⟩

end Jaqmc.Sparse
