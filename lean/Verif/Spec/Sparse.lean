import Verif.Model.SparseArith
/-!
Specification for C45: when a sparse value is well formed, and what it expands to.
-/
namespace Jaqmc.Sparse

/-- What the checks of the constructor mean: the owner axis exists; the blocks have shape `(slots, coords, *out)`; one or two
slots; every owner id is a position along the owner axis; a role that varies along an output axis lists one id per entry of
that axis. -/
structure SJac.Valid {K : Type} (j : SJac K) : Prop where
  axis : j.ownAx < j.inShape.length
  shape : j.blocks.shape = j.roles.length :: j.coords :: j.out
  count : j.roles.length = 1 ∨ j.roles.length = 2
  ids : ∀ o ∈ j.roles, ∀ v ∈ o.values, v < j.owners
  dims : ∀ o ∈ j.roles, ∀ a, o.axis = some a → a < j.out.length ∧ o.values.length = j.out.getD a 0

/-- A sparse `LapTuple`: value, Jacobian and Laplacian have one shape. -/
structure SLap.WF {K : Type} (s : SLap K) : Prop where
  jac : s.jac.Valid
  x : s.x.shape = s.jac.out
  lap : s.lap.shape = s.jac.out

/-- A dense `LapTuple`: value, Jacobian rows and Laplacian have one shape. -/
structure DLap.WF {K : Type} (d : DLap K) : Prop where
  jac : ∀ r < d.n, (d.jac r).shape = d.x.shape
  lap : d.lap.shape = d.x.shape

def Val.WF {K : Type} : Val K → Prop
  | .plain _ => True
  | .dense d => d.WF
  | .sparse s => s.WF

/-- Shapes that NumPy can broadcast together. -/
def Compat (s t : List ℕ) : Prop :=
  ∀ a, a < s.length → a < t.length → s.reverse.getD a 0 = 1 ∨ t.reverse.getD a 0 = 1 ∨ s.reverse.getD a 0 = t.reverse.getD a 0

/-- The `k`-th part of a split. -/
def splitPart {K : Type} (axis : ℕ) (sizes : List ℕ) (k : ℕ) (A : Arr K) : Arr K := ((laxSplit A axis 0 sizes)[k]?).getD A

/-- The shape checks of `lax.gather`. -/
structure GatherDims.OK (g : GatherDims) (opShape startShape window : List ℕ) : Prop where
  nodup : g.offset.Nodup
  count : g.offset.length = (keptAxes opShape.length (g.collapsed ++ g.opBatch)).length
  rank : ∀ o ∈ g.offset, o < g.offset.length + (startShape.length - 1)
  sizes : ∀ a < opShape.length, window.getD a 0 ≤ opShape.getD a 0
  collapsed : ∀ a ∈ g.collapsed, window.getD a 0 = 1
  batch : ∀ a ∈ g.opBatch, g.ixBatch.getD (g.opBatch.idxOf a) 0 < startShape.length - 1 ∧
    startShape.getD (g.ixBatch.getD (g.opBatch.idxOf a) 0) 0 = opShape.getD a 0

/-- The shape checks of `lax.dot_general`. -/
structure DotDims.OK (d : DotDims) (lshape rshape : List ℕ) : Prop where
  lnodup : (d.lb ++ d.lc).Nodup
  rnodup : (d.rb ++ d.rc).Nodup
  lbound : ∀ a ∈ d.lb ++ d.lc, a < lshape.length
  rbound : ∀ a ∈ d.rb ++ d.rc, a < rshape.length
  contract : d.lc.map (lshape.getD · 0) = d.rc.map (rshape.getD · 0)
  batch : d.lb.map (lshape.getD · 0) = d.rb.map (rshape.getD · 0)

section
variable {K : Type} [Field K]

/-- `v` is well formed, can be expanded, and expands to `E`. -/
def SLap.ExpandsTo (v : SLap K) (E : DLap K) : Prop := v.WF ∧ ∃ D, v.expand = some D ∧ D.Same E

/-- A tracked result that is `E` once expanded. -/
def Val.ExpandsTo (v : Val K) (E : DLap K) : Prop :=
  match v with
  | .plain _ => False
  | .dense d => d.WF ∧ d.Same E
  | .sparse s => s.ExpandsTo E

/-- The argument is a sparse `LapTuple`. -/
def Val.IsSparse : Val K → Prop
  | .sparse _ => True
  | _ => False

end
end Jaqmc.Sparse
