import Mathlib.Data.Real.Sqrt
import Mathlib.Data.List.MinMax
import Mathlib.LinearAlgebra.Matrix.NonsingularInverse
import Mathlib.Analysis.SpecialFunctions.Trigonometric.Arctan
import Mathlib.Analysis.SpecialFunctions.Trigonometric.Inverse
/-!
Model of `src/jaqmc/geometry/{obc,pbc,sphere}.py` in exact real arithmetic.
A lattice is a matrix whose rows are the lattice vectors; `v ᵥ* L` is `v @ L`.
-/
namespace Jaqmc.Geometry
open Matrix
open scoped Classical

variable {d : Nat}

/-- A position or displacement. -/
abbrev Vec (d : Nat) := Fin d → ℝ

/-- `jnp.linalg.norm(v, axis=-1)`. -/
noncomputable def norm (v : Vec d) : ℝ := Real.sqrt (∑ k, v k ^ 2)

/-- `x % m` on floats (`jnp.remainder`: the result has the sign of `m`), for `m ≠ 0`. -/
noncomputable def pmod (x m : ℝ) : ℝ := x - m * ⌊x / m⌋

/-! ### obc.py -/

/-- `pair_displacements_within`, obc.py:7-46: displacements; distances of the displacements shifted by 1 on the
diagonal, masked. -/
noncomputable def pairWithin {n : Nat} (pos : Fin n → Vec d) : (Fin n → Fin n → Vec d) × (Fin n → Fin n → ℝ) :=
  let disp := fun i j k => pos i k - pos j k
  let eye := fun i j : Fin n => if i = j then (1 : ℝ) else 0
  (disp, fun i j => norm (fun k => disp i j k + eye i j) * (1 - eye i j))

/-- `pair_displacements_between`, obc.py:49-87 (array ranks and equal `ndim` are in the types). -/
noncomputable def pairBetween {n m : Nat} (a : Fin n → Vec d) (b : Fin m → Vec d) :
    (Fin n → Fin m → Vec d) × (Fin n → Fin m → ℝ) :=
  (fun i j k => a i k - b j k, fun i j => norm (fun k => a i k - b j k))

/-! ### pbc.py -/

/-- `wrap_positions`, pbc.py:93-107, on one position. -/
noncomputable def wrap (L : Matrix (Fin d) (Fin d) ℝ) (p : Vec d) : Vec d :=
  (fun i => pmod ((p ᵥ* L⁻¹) i) 1) ᵥ* L

/-- The test for diagonal lattices, pbc.py:123-126. -/
def isDiagonal (L : Matrix (Fin d) (Fin d) ℝ) : Prop :=
  ∀ i j, |L i j - (if i = j then L i i else 0)| < (1e-10 : ℝ)

/-- The test for orthogonal lattices, pbc.py:131-136: *all* entries of the upper triangle of `L Lᵀ`,
the diagonal included, must be (nearly) zero (`allclose` against 0). -/
def isOrthogonal (L : Matrix (Fin d) (Fin d) ℝ) : Prop :=
  ∀ i j, i ≤ j → |(L * Lᵀ) i j| ≤ (1e-10 : ℝ)

/-- Displacement for diagonal lattices, pbc.py:144. -/
noncomputable def dispDiagonal (L : Matrix (Fin d) (Fin d) ℝ) (diff : Vec d) : Vec d :=
  fun k => pmod (diff k + L k k / 2) (L k k) - L k k / 2

/-- Displacement for orthogonal lattices, pbc.py:156-158. -/
noncomputable def dispOrthogonal (L : Matrix (Fin d) (Fin d) ℝ) (diff : Vec d) : Vec d :=
  (fun i => pmod ((diff ᵥ* L⁻¹) i + 1 / 2) 1 - 1 / 2) ᵥ* L

/-- The integer points `{-1,0,1}^d`, pbc.py:166-167 (in an unspecified order, which matters only for ties
between equally short images). -/
noncomputable def points (d : Nat) : List (Fin d → ℤ) :=
  (Finset.univ : Finset (Fin d → Fin 3)).toList.map (fun m i => ((m i : ℕ) : ℤ) - 1)

/-- An integer combination of the lattice vectors. -/
def latticeVec (L : Matrix (Fin d) (Fin d) ℝ) (m : Fin d → ℤ) : Vec d := (fun i => (m i : ℝ)) ᵥ* L

/-- Displacement in the general case, pbc.py:168-178: the shortest of `diff + shift`. -/
noncomputable def dispGeneral (L : Matrix (Fin d) (Fin d) ℝ) (diff : Vec d) : Vec d :=
  let all := (points d).map (fun m => fun k => diff k + latticeVec L m k)
  ((all.argmin norm)).getD diff

/-- `build_distance_fn(lattice)` on one pair, pbc.py:110-181. -/
noncomputable def minImage (L : Matrix (Fin d) (Fin d) ℝ) (ra rb : Vec d) : Vec d × ℝ :=
  let diff := fun k => ra k - rb k
  let disp := if isDiagonal L then dispDiagonal L diff
    else if isOrthogonal L then dispOrthogonal L diff
    else dispGeneral L diff
  (disp, norm disp)

/-- The displaced positions of `make_pbc_gaussian_proposal`, pbc.py:184-198, on one particle: the Gaussian
move (noise times width) then wrapping. -/
noncomputable def pbcProposal (L : Matrix (Fin d) (Fin d) ℝ) (stddev : ℝ) (noise x : Vec d) : Vec d :=
  wrap L (fun k => x k + noise k * stddev)

/-- `scaled_f`, pbc.py:201-215. -/
noncomputable def scaledF (w : ℝ) : ℝ := |w| * (1 - |w / Real.pi| ^ 3 / 4)

/-- `scaled_g`, pbc.py:218-234. -/
noncomputable def scaledG (w : ℝ) : ℝ := w * (1 - 3 / 2 * |w / Real.pi| + 1 / 2 * |w / Real.pi| ^ 2)

variable {s : Nat}

/-- `w = einsum("...ijk,lk->...ijl", xea, b)` for one displacement `r`. -/
def omega (b : Matrix (Fin s) (Fin d) ℝ) (r : Vec d) : Fin s → ℝ := fun l => ∑ k, r k * b l k

/-- Wrapping of `w` in `nu_distance`, pbc.py:270-271. -/
noncomputable def nuWrap (w : ℝ) : ℝ := w - (⌊(w + Real.pi) / (2 * Real.pi)⌋ : ℝ) * 2 * Real.pi

/-- The value under the root in `nu_distance`, pbc.py:272-279. -/
noncomputable def nuSq (a b : Matrix (Fin s) (Fin d) ℝ) (r : Vec d) : ℝ :=
  let w := fun l => nuWrap (omega b r l)
  (∑ i, (norm (a i) * scaledF (w i)) ^ 2)
    + ∑ i, ∑ j, (∑ k, a i k * a j k) * (scaledG (w i) * scaledG (w j)) * (1 - if i = j then 1 else 0)

/-- `nu_distance`, pbc.py:237-281: distance and relative coordinates. -/
noncomputable def nuDistance (a b : Matrix (Fin s) (Fin d) ℝ) (r : Vec d) : ℝ × Vec d :=
  (Real.sqrt (nuSq a b r), fun j => ∑ i, scaledG (nuWrap (omega b r i)) * a i j)

/-- The value under the root in `tri_distance`, pbc.py:320-324. -/
noncomputable def triSq (a b : Matrix (Fin s) (Fin d) ℝ) (r : Vec d) : ℝ :=
  let w := omega b r
  ∑ i, ∑ j, ((1 - Real.cos (w i)) * (1 - Real.cos (w j)) + Real.sin (w i) * Real.sin (w j))
    * (∑ k, a i k * a j k)

/-- `tri_distance`, pbc.py:284-325: distance and relative coordinates (sine and cosine halves). -/
noncomputable def triDistance (a b : Matrix (Fin s) (Fin d) ℝ) (r : Vec d) : ℝ × Vec d × Vec d :=
  (Real.sqrt (triSq a b r), fun j => ∑ i, Real.sin (omega b r i) * a i j,
    fun j => ∑ i, Real.cos (omega b r i) * a i j)

/-- `SymmetryType`, pbc.py:69-90. -/
inductive Symmetry where
  | minimal
  | fcc
  | bcc
  | hexagonal

/-- The integer matrices of `get_symmetry_lat` for `ndim = 3`, pbc.py:366-379 (as rows). -/
def symRows : Symmetry → List (Fin 3 → ℤ)
  | .minimal => [![1, 0, 0], ![0, 1, 0], ![0, 0, 1]]
  | .fcc => [![1, 0, 0], ![0, 1, 0], ![0, 0, 1], ![1, 1, 1]]
  | .bcc => [![1, 0, 0], ![0, 1, 0], ![0, 0, 1], ![1, -1, 0], ![1, 0, -1], ![0, 1, -1]]
  | .hexagonal => [![1, 0, 0], ![0, 1, 0], ![0, 0, 1], ![-1, -1, 0]]

/-- The matrix `mat`. -/
def symMat (t : Symmetry) : Matrix (Fin (symRows t).length) (Fin 3) ℝ :=
  fun i j => (((symRows t).get i) j : ℝ)

/-- `bv = mat @ (2π inv(lattice).T)`, pbc.py:365, 381. -/
noncomputable def symB (t : Symmetry) (L : Matrix (Fin 3) (Fin 3) ℝ) : Matrix (Fin (symRows t).length) (Fin 3) ℝ :=
  symMat t * ((2 * Real.pi) • (L⁻¹)ᵀ)

/-- `av = pinv(bv).T`, pbc.py:382; `bv` has full column rank, so the pseudo-inverse is
`(bvᵀ bv)⁻¹ bvᵀ`. -/
noncomputable def symA (t : Symmetry) (L : Matrix (Fin 3) (Fin 3) ℝ) : Matrix (Fin (symRows t).length) (Fin 3) ℝ :=
  (((symB t L)ᵀ * symB t L)⁻¹ * (symB t L)ᵀ)ᵀ

/-! ### sphere.py -/

/-- The Cartesian point with polar angles `(theta, phi)`. -/
noncomputable def cartesian (theta phi : ℝ) : Fin 3 → ℝ :=
  ![Real.sin theta * Real.cos phi, Real.sin theta * Real.sin phi, Real.cos theta]

/-- `rot_z`, sphere.py:36-42. -/
noncomputable def rotZ (phi : ℝ) : Matrix (Fin 3) (Fin 3) ℝ :=
  !![Real.cos phi, -Real.sin phi, 0; Real.sin phi, Real.cos phi, 0; 0, 0, 1]

/-- `rot_y`, sphere.py:43-49. -/
noncomputable def rotY (theta : ℝ) : Matrix (Fin 3) (Fin 3) ℝ :=
  !![Real.cos theta, 0, Real.sin theta; 0, 1, 0; -Real.sin theta, 0, Real.cos theta]

/-- `jnp.clip(x, -1, 1)`. -/
noncomputable def clip1 (x : ℝ) : ℝ := min (max x (-1)) 1

/-- The Cartesian image of a move, sphere.py:17-52: `normal` and `uniform` are the two draws. -/
noncomputable def sphereTarget (theta phi stddev normal uniform : ℝ) : Fin 3 → ℝ :=
  (rotZ phi * rotY theta) *ᵥ cartesian (Real.arctan (normal * stddev)) (uniform * 2 * Real.pi)

/-- Conversion back to angles, sphere.py:53-56; `none` is NaN (`0 / 0` at a pole). -/
noncomputable def toAngles (p : Fin 3 → ℝ) : Option (ℝ × ℝ) :=
  let theta := Real.arccos (clip1 (p 2))
  if Real.sin theta = 0 then none
  else some (theta, (SignType.sign (p 1) : ℝ) * Real.arccos (clip1 (p 0 / Real.sin theta)))

/-- `_sphere_move`, sphere.py:12-56, for one particle. -/
noncomputable def sphereMove (theta phi stddev normal uniform : ℝ) : Option (ℝ × ℝ) :=
  toAngles (sphereTarget theta phi stddev normal uniform)

end Jaqmc.Geometry
