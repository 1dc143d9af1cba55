import Verif.Model.Supercell
import Mathlib.Analysis.SpecialFunctions.Complex.Circle
/-!
Model of `src/jaqmc/estimator/ewald.py` in exact real arithmetic. The complementary error function is a parameter
`erfc` of the model (any function).
-/
namespace Jaqmc.Ewald
open Jaqmc.Geometry Jaqmc.Supercell Matrix
open scoped Classical

/-- Integer coefficients of the real-space images, `set_lattice_displacements`, ewald.py:50-55. -/
def images (nlat : Nat) : List IVec := mesh (fun _ => -(nlat : ℤ)) (fun _ => (nlat : ℤ) + 1)

/-- `recvec = inv(latvec).T`, ewald.py:77. -/
noncomputable def recvec (L : Matrix (Fin 3) (Fin 3) ℝ) : Matrix (Fin 3) (Fin 3) ℝ := (L⁻¹)ᵀ

/-- `smallestheight`, ewald.py:80. -/
noncomputable def smallestHeight (L : Matrix (Fin 3) (Fin 3) ℝ) : ℝ :=
  Finset.univ.inf' Finset.univ_nonempty (fun i => 1 / Geometry.norm (recvec L i))

/-- `alpha`, ewald.py:81. -/
noncomputable def alpha (L : Matrix (Fin 3) (Fin 3) ℝ) : ℝ := 5 / smallestHeight L

/-- `gpoints`, ewald.py:195. -/
noncomputable def gvec (L : Matrix (Fin 3) (Fin 3) ℝ) (g : IVec) : Vec 3 :=
  fun k => ((fun i => (g i : ℝ)) ᵥ* recvec L) k * 2 * Real.pi

/-- `gsquared`, ewald.py:196. -/
noncomputable def gsq (L : Matrix (Fin 3) (Fin 3) ℝ) (g : IVec) : ℝ := ∑ k, gvec L g k * gvec L g k

/-- `gweight`, ewald.py:197-198, with `cellvolume = det(latvec)`, ewald.py:76. -/
noncomputable def gweight (L : Matrix (Fin 3) (Fin 3) ℝ) (g : IVec) : ℝ :=
  4 * Real.pi * Real.exp (-gsq L g / (4 * alpha L ^ 2)) / (L.det * gsq L g)

/-- The three half-space grids, ewald.py:85-101. -/
def gridXpos (gmax : Nat) : List IVec :=
  mesh ![1, -(gmax : ℤ), -(gmax : ℤ)] ![(gmax : ℤ) + 1, (gmax : ℤ) + 1, (gmax : ℤ) + 1]

/-- See `gridXpos`. -/
def gridX0Ypos (gmax : Nat) : List IVec :=
  mesh ![0, 1, -(gmax : ℤ)] ![1, (gmax : ℤ) + 1, (gmax : ℤ) + 1]

/-- See `gridXpos`. -/
def gridX0Y0Zpos (gmax : Nat) : List IVec :=
  mesh ![0, 0, 1] ![1, 1, (gmax : ℤ) + 1]

/-- `select_big_3d` on one grid, ewald.py:176-200 (`tol = 1e-12`). -/
noncomputable def selectBig (L : Matrix (Fin 3) (Fin 3) ℝ) (grid : List IVec) : List IVec :=
  grid.filter (fun g => decide (gweight L g > 1e-12))

/-- The kept reciprocal vectors, ewald.py:101-105. -/
noncomputable def kept (L : Matrix (Fin 3) (Fin 3) ℝ) (gmax : Nat) : List IVec :=
  selectBig L (gridXpos gmax) ++ selectBig L (gridX0Ypos gmax) ++ selectBig L (gridX0Y0Zpos gmax)

variable {n : Nat}

/-- `center_image_idx`, ewald.py:143-145. -/
noncomputable def center (L : Matrix (Fin 3) (Fin 3) ℝ) (nlat : Nat) : Option (Fin (images nlat).length) :=
  (List.finRange (images nlat).length).argmin (fun l => Geometry.norm (latticeVec L ((images nlat).get l)))

/-- The real-space sum, ewald.py:130-159. -/
noncomputable def vReal (erfc : ℝ → ℝ) (L : Matrix (Fin 3) (Fin 3) ℝ) (nlat : Nat) (x : Fin n → Vec 3)
    (q : Fin n → ℝ) : ℝ :=
  1 / 2 * ∑ l : Fin (images nlat).length, ∑ i, ∑ j,
    let rvec := fun k => (minImage L (x i) (x j)).1 k + latticeVec L ((images nlat).get l) k
    let r := Geometry.norm rvec
    let rsafe := if r < 1e-7 then 1e-7 else r
    let mask := if center L nlat = some l then 1 - (if i = j then 1 else 0) else 1
    q i * q j * (erfc (alpha L * rsafe) / rsafe) * mask

/-- `structure_factor`, ewald.py:162-163. -/
noncomputable def structureFactor (L : Matrix (Fin 3) (Fin 3) ℝ) (x : Fin n → Vec 3) (q : Fin n → ℝ) (g : IVec) : ℂ :=
  ∑ j, Complex.exp (Complex.I * ((∑ k, gvec L g k * x j k : ℝ) : ℂ)) * (q j : ℂ)

/-- The reciprocal-space sum, ewald.py:164. -/
noncomputable def vRecip (L : Matrix (Fin 3) (Fin 3) ℝ) (gmax : Nat) (x : Fin n → Vec 3) (q : Fin n → ℝ) : ℝ :=
  ((kept L gmax).map (fun g => gweight L g * ‖structureFactor L x q g‖ ^ 2)).sum

/-- The self-energy correction, ewald.py:110 and 167. -/
noncomputable def vSelf (L : Matrix (Fin 3) (Fin 3) ℝ) (q : Fin n → ℝ) : ℝ :=
  -alpha L / Real.sqrt Real.pi * ∑ i, q i ^ 2

/-- The background correction, ewald.py:108 and 170-171. -/
noncomputable def vCharged (L : Matrix (Fin 3) (Fin 3) ℝ) (q : Fin n → ℝ) : ℝ :=
  1 / 2 * (-Real.pi / (L.det * alpha L ^ 2)) * (∑ i, q i) ^ 2

/-- `EwaldSum.energy`, ewald.py:112-173. -/
noncomputable def energy (erfc : ℝ → ℝ) (L : Matrix (Fin 3) (Fin 3) ℝ) (gmax nlat : Nat) (x : Fin n → Vec 3)
    (q : Fin n → ℝ) : ℝ :=
  vReal erfc L nlat x q + vRecip L gmax x q + vSelf L q + vCharged L q

end Jaqmc.Ewald
