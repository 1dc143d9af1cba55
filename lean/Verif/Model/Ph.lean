import Mathlib.Analysis.Calculus.FDeriv.Basic
import Mathlib.Analysis.Complex.Basic
import Mathlib.Analysis.Real.Sqrt
import Mathlib.LinearAlgebra.Matrix.PosDef
import Verif.Model.Kinetic
/-!
Model of the pseudo-Hamiltonian estimator, `src/jaqmc/estimator/ph/{estimator,_standard,_forward_laplacian,data}.py`.
Exact arithmetic; `NaN` is `none`.  Automatic differentiation is Mathlib's derivative.  `f` is the function
`x ↦ f_log_psi(params, data.merge({electrons_field: x}))` of the electron positions (the code flattens the position array
for `jax.grad` and `jax.hessian`; the directions below are the same coordinates).  The arrays have the shapes the code
insists on.
-/
namespace Jaqmc.Ph
open Jaqmc.Kinetic (pd pdC)
open Matrix
open scoped Classical

/-- Electron positions. -/
abbrev Conf (n : ℕ) := Fin n → Fin 3 → ℝ

/-- A point in space. -/
abbrev Pt := Fin 3 → ℝ

abbrev Mat := Matrix (Fin 3) (Fin 3) ℝ

variable {n A : ℕ}

/-- `jnp.linalg.norm(rel, axis=-1)`. -/
noncomputable def norm3 (v : Pt) : ℝ := Real.sqrt (∑ k, v k ^ 2)

/-- `rel`, _standard.py:325, _forward_laplacian.py:134. -/
def rel (x : Pt) (R : Pt) : Pt := fun k => x k - R k

/-- `inv_r = jnp.where(r > 0, 1.0 / r, 0.0)`, _standard.py:329, _forward_laplacian.py:138. -/
noncomputable def invR (r : ℝ) : ℝ := if 0 < r then 1 / r else 0

/-- The summed correction `mass`, _standard.py:325-335, _forward_laplacian.py:134-142. -/
noncomputable def correction (x : Pt) (atoms : Fin A → Pt) (l2 : Fin A → ℝ) : Mat :=
  fun i j => ∑ a, l2 a * (norm3 (rel x (atoms a)) * (1 : Mat) i j -
    rel x (atoms a) i * rel x (atoms a) j * invR (norm3 (rel x (atoms a))))

/-- The mass matrix `0.5 * eye + mass`, _standard.py:336, _forward_laplacian.py:139-142. -/
noncomputable def mass (x : Pt) (atoms : Fin A → Pt) (l2 : Fin A → ℝ) : Mat :=
  (0.5 : ℝ) • (1 : Mat) + correction x atoms l2

/-- The guard of `_build_second_order_matrix_single`, _standard.py:339-343: NaN unless all eigenvalues of the (symmetric)
matrix are positive. -/
noncomputable def guarded (M : Mat) : Option Mat := if M.PosDef then some M else none

/-- The coordinate direction `k` of electron `i`. -/
def dir (i : Fin n) (k : Fin 3) : Conf n := Pi.single i (Pi.single k 1)

/-- `_evaluate_ph_first_order_vector_single`, _standard.py:346-369: minus the divergence of the correction matrix, the radial
values being held fixed. Where the guard is passed (see `standard`) the derivative of the guarded matrix is that of the matrix. -/
noncomputable def firstOrderStandard (x : Pt) (atoms : Fin A → Pt) (l2 : Fin A → ℝ) (k : Fin 3) : ℝ :=
  -∑ j, pd (Pi.single j 1) (fun p => correction p atoms l2 j k) x

/-- `_first_order_vector_for_electron`, _forward_laplacian.py:145-172. -/
noncomputable def firstOrderForward (x : Pt) (atoms : Fin A → Pt) (l2 : Fin A → ℝ) (k : Fin 3) : ℝ :=
  ∑ a, 2 * l2 a * invR (norm3 (rel x (atoms a))) * rel x (atoms a) k

/-- The contractions, _standard.py:116-120. -/
def contract {K : Type} [Ring K] [Algebra ℝ K] (M : Fin n → Mat) (b : Fin n → Pt) (g : Fin n → Fin 3 → K)
    (H : Fin n → Fin 3 → Fin 3 → K) : K :=
  let traceTerm := ∑ e, ∑ i, ∑ j, (M e i j) • H e j i
  let gradTerm := ∑ e, ∑ i, ∑ j, (M e i j) • (g e i * g e j)
  let firstOrder := ∑ e, ∑ i, (b e i) • g e i
  firstOrder - (traceTerm + gradTerm)

/-- `compute_derivative_energy`, _standard.py:44-120, for real `log psi`; `l2 e a` are the interpolated radial values. -/
noncomputable def standard (f : Conf n → ℝ) (x : Conf n) (atoms : Fin A → Pt) (l2 : Fin n → Fin A → ℝ) : Option ℝ :=
  let M := fun e => mass (x e) atoms (l2 e)
  if ∀ e, (guarded (M e)).isSome then
    some (contract M (fun e => firstOrderStandard (x e) atoms (l2 e)) (fun e i => pd (dir e i) f x)
      (fun e i j => pd (dir e j) (fun y => pd (dir e i) f y) x))
  else none

/-- The same for complex `log psi` (`grad_maybe_complex`, `hessian_maybe_complex`, func_transform.py:117-200). -/
noncomputable def standardC (f : Conf n → ℂ) (x : Conf n) (atoms : Fin A → Pt) (l2 : Fin n → Fin A → ℝ) : Option ℂ :=
  let M := fun e => mass (x e) atoms (l2 e)
  if ∀ e, (guarded (M e)).isSome then
    some (contract M (fun e => firstOrderStandard (x e) atoms (l2 e)) (fun e i => pdC (dir e i) f x)
      (fun e i j => (pd (dir e j) (fun y => pd (dir e i) (fun z => (f z).re) y) x : ℂ) +
        Complex.I * (pd (dir e j) (fun y => pd (dir e i) (fun z => (f z).im) y) x : ℂ)))
  else none

/-- `jnp.linalg.cholesky` of a symmetric 3×3 matrix, _forward_laplacian.py:81: the column algorithm, which gives NaN when a
pivot is not positive. -/
noncomputable def cholesky (M : Mat) : Option Mat :=
  let p0 := M 0 0
  let l00 := Real.sqrt p0
  let l10 := M 1 0 / l00
  let l20 := M 2 0 / l00
  let p1 := M 1 1 - l10 ^ 2
  let l11 := Real.sqrt p1
  let l21 := (M 2 1 - l20 * l10) / l11
  let p2 := M 2 2 - l20 ^ 2 - l21 ^ 2
  let l22 := Real.sqrt p2
  if 0 < p0 ∧ 0 < p1 ∧ 0 < p2 then some !![l00, 0, 0; l10, l11, 0; l20, l21, l22] else none

/-- `shift = jnp.einsum("eij,ej->ei", cholesky, y)` and `electrons + shift`, _forward_laplacian.py:206-208. -/
def shifted (x : Conf n) (L : Fin n → Mat) (y : Conf n) : Conf n := fun e i => x e i + ∑ j, L e i j * y e j

/-- The Cholesky factors of all electrons, when none is NaN. -/
noncomputable def factors (x : Conf n) (atoms : Fin A → Pt) (l2 : Fin n → Fin A → ℝ) : Option (Fin n → Mat) :=
  if ∀ e, (cholesky (mass (x e) atoms (l2 e))).isSome then
    some fun e => (cholesky (mass (x e) atoms (l2 e))).getD 0
  else none

/-- `compute_derivative_energy`, _forward_laplacian.py:40-107, for real `log psi`, from the Jacobian and Laplacian that
`forward_laplacian` returns for the shifted function `y ↦ f (shifted x L y)` at zero (see C44, C45); `jnp.vdot` of a real array
is the sum of squares. -/
noncomputable def forward (f : Conf n → ℝ) (x : Conf n) (atoms : Fin A → Pt) (l2 : Fin n → Fin A → ℝ)
    (jac : Fin n × Fin 3 → ℝ) (lap : ℝ) : Option ℝ :=
  (factors x atoms l2).map fun _ =>
    -(lap + ∑ k, jac k * jac k) + ∑ e, ∑ i, firstOrderForward (x e) atoms (l2 e) i * pd (dir e i) f x

/-- The same for complex `log psi`: `jnp.vdot` conjugates its first argument. -/
noncomputable def forwardC (f : Conf n → ℂ) (x : Conf n) (atoms : Fin A → Pt) (l2 : Fin n → Fin A → ℝ)
    (jac : Fin n × Fin 3 → ℂ) (lap : ℂ) : Option ℂ :=
  (factors x atoms l2).map fun _ =>
    -(lap + ∑ k, (starRingEnd ℂ) (jac k) * jac k) +
      ∑ e, ∑ i, (firstOrderForward (x e) atoms (l2 e) i : ℂ) * pdC (dir e i) f x

/-! ### Radial tables -/

/-- `jnp.linspace(0.0, 10.0, N)[i]`, estimator.py:93, `N = m + 2` points. -/
noncomputable def gridPt (m : ℕ) (i : ℕ) : ℝ := 10 * i / (m + 1)

/-- `jnp.interp(r, grid, table)`, estimator.py:186-190, for a table of `m + 2` values: piecewise linear, constant beyond the ends.
`searchsorted` gives the number of grid points not above `r`, clipped to `1 … m + 1`. -/
noncomputable def interp (m : ℕ) (table : ℕ → ℝ) (r : ℝ) : ℝ :=
  let cnt := ((Finset.range (m + 2)).filter fun i => gridPt m i ≤ r).card
  let i := max 1 (min cnt (m + 1))
  let inner := table (i - 1) + (r - gridPt m (i - 1)) / (gridPt m i - gridPt m (i - 1)) * (table i - table (i - 1))
  if r < gridPt m 0 then table 0 else if gridPt m (m + 1) < r then table (m + 1) else inner

/-- `energy:ph`, `_evaluate_zero_order_term`, estimator.py:218-239 with the interpolated local table of each atom. -/
noncomputable def zeroOrder (m : ℕ) (x : Conf n) (atoms : Fin A → Pt) (loc : Fin A → ℕ → ℝ) : ℝ :=
  ∑ e, ∑ a, interp m (loc a) (norm3 (rel (x e) (atoms a))) / norm3 (rel (x e) (atoms a))

/-- The radial values handed to the backends, estimator.py:165-177. -/
noncomputable def radialL2 (m : ℕ) (x : Conf n) (atoms : Fin A → Pt) (l2 : Fin A → ℕ → ℝ) (e : Fin n) (a : Fin A) : ℝ :=
  interp m (l2 a) (norm3 (rel (x e) (atoms a)))

/-- `_reconstruct_paper_ph_data`, data.py:165-211, pointwise in the table: `ch l` is the channel of angular momentum `l`, `lmax` is
`l-local`. Returns `(tilde_v_loc, v_L2)`. -/
noncomputable def reconstruct (lmax : ℕ) (ch : ℕ → ℝ) : ℝ × ℝ :=
  if lmax = 0 then (ch 0, 0)
  else
    let cand := fun l : ℕ => (ch l - ch lmax) / (((l * (l + 1) : ℕ) : ℝ) - ((lmax * (lmax + 1) : ℕ) : ℝ))
    let l2 := (∑ l ∈ Finset.range lmax, cand l) / lmax
    (ch lmax - ((lmax * (lmax + 1) : ℕ) : ℝ) * l2, l2)

/-- The tables of one element, `load_ph_element_data`, data.py:74-122 and 133-152: `ch l i` is entry `i` of channel `l`, `charge` the
valence charge added to the local table. -/
noncomputable def loadTables (lmax : ℕ) (ch : ℕ → ℕ → ℝ) (charge : ℝ) : (ℕ → ℝ) × (ℕ → ℝ) :=
  (fun i => (reconstruct lmax fun l => ch l i).1 + charge, fun i => (reconstruct lmax fun l => ch l i).2)

/-- `_resolve_ph_atom_indices`, estimator.py:104-123; `none` is the `ValueError`. -/
def resolve (supported ph symbols : List String) : Option (List ℕ) :=
  if ph = [] then none
  else if ∃ s ∈ ph, s ∉ supported then none
  else
    let idx := (symbols.zipIdx.filter fun p => decide (p.1 ∈ ph)).map (·.2)
    if idx = [] then none else some idx

end Jaqmc.Ph
