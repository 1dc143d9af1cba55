import Verif.Model.Geometry
/-!
Model of `src/jaqmc/utils/supercell.py` in exact arithmetic: integer supercell matrices, real lattices.
`floor`/`ceil` of integers are the integers themselves.
-/
namespace Jaqmc.Supercell
open Jaqmc.Geometry Matrix
open scoped Classical

/-- An integer vector. -/
abbrev IVec := Fin 3 → ℤ

/-- The 8 corners of the unit box, supercell.py:60-62 and 100-102. -/
def unitBox : List IVec :=
  [0, 1].flatMap fun a => [0, 1].flatMap fun b => [(0 : ℤ), 1].map fun c => ![a, b, c]

/-- `jnp.amin(pts, axis=0)`. -/
def amin (pts : List IVec) : IVec := fun j => ((pts.map (fun p => p j)).min?).getD 0

/-- `jnp.amax(pts, axis=0)`. -/
def amax (pts : List IVec) : IVec := fun j => ((pts.map (fun p => p j)).max?).getD 0

/-- `jnp.arange(lo, hi)`. -/
def arange (lo hi : ℤ) : List ℤ := (List.range (hi - lo).toNat).map (fun k : Nat => lo + (k : ℤ))

/-- `meshgrid` of three ranges, flattened, supercell.py:70-72 and 107-111. -/
def mesh (lo hi : IVec) : List IVec :=
  (arange (lo 0) (hi 0)).flatMap fun a => (arange (lo 1) (hi 1)).flatMap fun b =>
    (arange (lo 2) (hi 2)).map fun c => ![a, b, c]

/-- The supercell matrix as real numbers. -/
def real (S : Matrix (Fin 3) (Fin 3) ℤ) : Matrix (Fin 3) (Fin 3) ℝ := S.map (fun x => (x : ℝ))

/-- `possible @ inv(S)`, supercell.py:75 and 113. -/
noncomputable def frac (S : Matrix (Fin 3) (Fin 3) ℤ) (n : IVec) : Vec 3 := (fun i => (n i : ℝ)) ᵥ* (real S)⁻¹

/-- The filter on fractional coordinates with its tolerance, supercell.py:78-80 and 115-116. -/
def inBox (f : Vec 3) : Prop := ∀ j, -(1e-5 : ℝ) ≤ f j ∧ f j < 1 - 1e-5

/-- `get_reciprocal_vectors`, supercell.py:11-23. -/
noncomputable def reciprocal (L : Matrix (Fin 3) (Fin 3) ℝ) : Matrix (Fin 3) (Fin 3) ℝ := (2 * Real.pi) • (L⁻¹)ᵀ

/-- The integer vectors kept by `get_supercell_copies`, supercell.py:100-118. -/
noncomputable def copyIndices (S : Matrix (Fin 3) (Fin 3) ℤ) : List IVec :=
  let box := unitBox.map (fun u => u ᵥ* S)
  (mesh (amin box) (amax box)).filter (fun n => decide (inBox (frac S n)))

/-- `get_supercell_copies`, supercell.py:88-120. -/
noncomputable def copies (latvec : Matrix (Fin 3) (Fin 3) ℝ) (S : Matrix (Fin 3) (Fin 3) ℤ) : List (Vec 3) :=
  (copyIndices S).map (fun n => (fun i => (n i : ℝ)) ᵥ* latvec)

/-- The integer vectors kept by `get_supercell_kpts`, supercell.py:59-80: the scanned box is that of `S.T`, its
upper ends included. -/
noncomputable def kIndices (S : Matrix (Fin 3) (Fin 3) ℤ) : List IVec :=
  let box := unitBox.map (fun u => u ᵥ* Sᵀ)
  (mesh (amin box) (fun j => amax box j + 1)).filter (fun n => decide (inBox (frac S n)))

/-- `get_supercell_kpts`, supercell.py:26-85. -/
noncomputable def kpts (S : Matrix (Fin 3) (Fin 3) ℤ) (recip : Matrix (Fin 3) (Fin 3) ℝ) : List (Vec 3) :=
  (kIndices S).map (fun n => (fun j => pmod (frac S n j) 1) ᵥ* recip)

/-- `SolidConfig.supercell_lattice`, app/solid/config/base.py:139-140. -/
def supercellLattice (latvec : Matrix (Fin 3) (Fin 3) ℝ) (S : Matrix (Fin 3) (Fin 3) ℤ) : Matrix (Fin 3) (Fin 3) ℝ :=
  real S * latvec

/-- `SolidConfig.scale`, app/solid/config/base.py:143-144. -/
def scale (S : Matrix (Fin 3) (Fin 3) ℤ) : Nat := S.det.natAbs

end Jaqmc.Supercell
