import Verif.Model.Sparse
import Mathlib.Analysis.SpecialFunctions.Exp
import Mathlib.Analysis.SpecialFunctions.Sqrt
import Mathlib.Logic.Equiv.Fin.Basic
/-!
Model of LapNet attention and its handwritten Forward Laplacian rule: `src/jaqmc/wavefunction/backbone/lapnet/_attention.py`, with the calling
convention of `src/jaqmc/laplacian/custom_rules.py` and `laplacian/primitives/custom_laplacian.py`.  Exact arithmetic; `optimization_barrier`
and `stop_gradient` do not change values.  `n` electrons, `C` coordinates per electron, `H` heads, `D` features per head.
-/
namespace Jaqmc.Attention

variable {n C H D : ℕ}

/-- An array with the axes electron, head, feature. -/
abbrev Arr3 (n H D : ℕ) := Fin n → Fin H → Fin D → ℝ

/-- `lapnet_sparse_attention`, _attention.py:20-34: softmax of the scaled scalar products, times the values. -/
noncomputable def attention (q k v : Arr3 n H D) : Arr3 n H D := fun i h d =>
  let logit := fun j => (∑ e, q i h e * k j h e) / Real.sqrt D
  let m := ⨆ j, logit j
  ∑ j, Real.exp (logit j - m) / (∑ l, Real.exp (logit l - m)) * v j h d

/-- A `LapTuple` with a dense Jacobian; rows are the tracked inputs. -/
structure Dense (n C H D : ℕ) where
  x : Arr3 n H D
  jac : Fin (n * C) → Arr3 n H D
  lap : Arr3 n H D

/-- A `LapTuple` with a `Local1Jacobian`: `blocks[0]` has the axes coordinate, electron, head, feature. -/
structure Local1 (n C H D : ℕ) where
  x : Arr3 n H D
  blocks : Fin C → Arr3 n H D
  lap : Arr3 n H D
  owner : Sparse.OwnerRole
  inShape : List ℕ
  ownAx : ℕ

/-- `input_n_particles`, sparse.py:331-334. -/
def Local1.particles (t : Local1 n C H D) : ℕ := t.inShape.getD t.ownAx 0

/-- What an argument of the rule can be. -/
inductive Arg (n C H D : ℕ)
  | plain (x : Arr3 n H D)
  | dense (t : Dense n C H D)
  | local1 (t : Local1 n C H D)
  | local2

/-- `_local1_owner_matches_sparse_axis`, _attention.py:55-63. -/
def ownerMatches (n : ℕ) (o : Sparse.OwnerRole) : Bool := o.axis = some 0 && o.values = List.range n

/-- `_supports_local1_attention`, _attention.py:66-80 (shapes and coordinate dimensions agree by the types). -/
def supports (q k : Local1 n C H D) : Bool :=
  q.particles = n && k.particles = n && decide (q.owner = k.owner) && ownerMatches n q.owner && ownerMatches n k.owner

/-- The unit matrix, _attention.py:129. -/
def eye (i j : Fin n) : ℝ := if i = j then 1 else 0

/-- Row of the dense Jacobian read as `(electron, coordinate)` by the reshapes, _attention.py:162-164, 171, 180-182. -/
def row (p : Fin n) (c : Fin C) : Fin (n * C) := finProdFinEquiv (p, c)

section
variable (q k : Local1 n C H D) (v : Dense n C H D)

/-- _attention.py:136. -/
noncomputable def logitsX (h : Fin H) (i j : Fin n) : ℝ := (∑ d, q.x i h d * k.x j h d) / Real.sqrt D
/-- _attention.py:137. -/
noncomputable def logitsGradI (c : Fin C) (h : Fin H) (i j : Fin n) : ℝ := (∑ d, q.blocks c i h d * k.x j h d) / Real.sqrt D
/-- _attention.py:138. -/
noncomputable def logitsGradJ (c : Fin C) (h : Fin H) (i j : Fin n) : ℝ := (∑ d, q.x i h d * k.blocks c j h d) / Real.sqrt D
/-- _attention.py:143. -/
noncomputable def logitsCross (h : Fin H) (i : Fin n) : ℝ := 2 * (∑ c, ∑ d, q.blocks c i h d * k.blocks c i h d) / Real.sqrt D
/-- _attention.py:139-144. -/
noncomputable def logitsL (h : Fin H) (i j : Fin n) : ℝ :=
  ((∑ d, q.lap i h d * k.x j h d) + ∑ d, q.x i h d * k.lap j h d) / Real.sqrt D + logitsCross q k h i * eye i j
/-- _attention.py:146-149. -/
noncomputable def logitsTrace (h : Fin H) (i j : Fin n) : ℝ :=
  ((∑ c, logitsGradI q k c h i j ^ 2) + ∑ c, logitsGradJ q k c h i j ^ 2) + 2 * (∑ c, logitsGradI q k c h i j * logitsGradJ q k c h i j) * eye i j
/-- _attention.py:151-154. -/
noncomputable def weightsX (h : Fin H) (i j : Fin n) : ℝ := Real.exp (logitsX q k h i j - ⨆ l, logitsX q k h i l)
/-- _attention.py:155. -/
noncomputable def weightsGradI (c : Fin C) (h : Fin H) (i j : Fin n) : ℝ := weightsX q k h i j * logitsGradI q k c h i j
/-- _attention.py:156. -/
noncomputable def weightsGradJ (c : Fin C) (h : Fin H) (i j : Fin n) : ℝ := weightsX q k h i j * logitsGradJ q k c h i j
/-- _attention.py:157. -/
noncomputable def weightsL (h : Fin H) (i j : Fin n) : ℝ := weightsX q k h i j * (logitsL q k h i j + logitsTrace q k h i j)
/-- _attention.py:159. -/
noncomputable def denomX (h : Fin H) (i : Fin n) : ℝ := ∑ j, weightsX q k h i j
/-- _attention.py:160-164. -/
noncomputable def denomJ (p : Fin n) (c : Fin C) (h : Fin H) (i : Fin n) : ℝ :=
  eye p i * (∑ j, weightsGradI q k c h i j) + weightsGradJ q k c h i p
/-- _attention.py:165. -/
noncomputable def denomL (h : Fin H) (i : Fin n) : ℝ := ∑ j, weightsL q k h i j
/-- _attention.py:169. -/
noncomputable def numerX (h : Fin H) (i : Fin n) (d : Fin D) : ℝ := ∑ j, weightsX q k h i j * v.x j h d
/-- _attention.py:171-182. -/
noncomputable def numerJ (p : Fin n) (c : Fin C) (h : Fin H) (i : Fin n) (d : Fin D) : ℝ :=
  eye p i * (∑ j, weightsGradI q k c h i j * v.x j h d) + weightsGradJ q k c h i p * v.x p h d + ∑ j, weightsX q k h i j * v.jac (row p c) j h d
/-- _attention.py:184-195. -/
noncomputable def numerL (h : Fin H) (i : Fin n) (d : Fin D) : ℝ :=
  (∑ j, weightsL q k h i j * v.x j h d) + (∑ j, weightsX q k h i j * v.lap j h d) +
    2 * (∑ c, ∑ j, weightsGradI q k c h i j * v.jac (row i c) j h d) + 2 * ∑ c, ∑ j, weightsGradJ q k c h i j * v.jac (row j c) j h d

/-- `_attention_quotient`, _attention.py:83-110, and the rule `_lapnet_sparse_attention_local1_rule`, _attention.py:113-196. -/
noncomputable def local1Rule : Dense n C H D where
  x := fun i h d => numerX q k v h i d * (1 / denomX q k h i)
  jac := fun r i h d =>
    let pc := finProdFinEquiv.symm r
    numerJ q k v pc.1 pc.2 h i d * (1 / denomX q k h i) - numerX q k v h i d * denomJ q k pc.1 pc.2 h i * (1 / denomX q k h i) ^ 2
  lap := fun i h d =>
    let inv := 1 / denomX q k h i
    numerL q k v h i d * inv - 2 * (∑ r, numerJ q k v (finProdFinEquiv.symm r).1 (finProdFinEquiv.symm r).2 h i d * denomJ q k (finProdFinEquiv.symm r).1 (finProdFinEquiv.symm r).2 h i) * inv ^ 2
      - numerX q k v h i d * denomL q k h i * inv ^ 2
      + 2 * numerX q k v h i d * (∑ r : Fin (n * C), denomJ q k (finProdFinEquiv.symm r).1 (finProdFinEquiv.symm r).2 h i ^ 2) * inv ^ 3

end

/-- `to_dense`, sparse.py:373-440: an entry belongs to the rows of its owner. -/
def Local1.toDense (t : Local1 n C H D) : Dense n C H D :=
  ⟨t.x, fun r i h d => if t.owner.at [i, h, d] = Sparse.rowOwner t.inShape t.ownAx r then
      (if hc : Sparse.rowCoord t.inShape t.ownAx r < C then t.blocks ⟨_, hc⟩ i h d else 0) else 0, t.lap⟩

/-- `_as_dense_laptuple`, _attention.py:37-52; the number of rows agrees by the types.  A `Local2Jacobian` of the value is not modelled (`none`). -/
def asDense (a : Arg n C H D) : Option (Dense n C H D) :=
  match a with
  | .plain x => some ⟨x, fun _ _ _ _ => 0, fun _ _ _ => 0⟩
  | .dense t => some t
  | .local1 t => some t.toDense
  | .local2 => none

/-- What the rule does: an answer, or `AutoLaplacianFallback`. -/
inductive Outcome (n C H D : ℕ)
  | result (t : Option (Dense n C H D))
  | fallback

/-- `_lapnet_sparse_attention_rule`, _attention.py:199-220. -/
noncomputable def rule (q k v : Arg n C H D) : Outcome n C H D :=
  match q, k with
  | .local1 q, .local1 k => if supports q k then .result ((asDense v).map (local1Rule q k)) else .fallback
  | _, _ => .fallback

end Jaqmc.Attention
