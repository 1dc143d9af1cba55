import Verif.Model.MolEnergy
import Mathlib.Analysis.SpecialFunctions.Trigonometric.Basic
/-!
Model of the geometry builders: `src/jaqmc/app/solid/config/{base,rock_salt,two_atom_chain}.py` and
`src/jaqmc/app/molecule/config/{alkane,atom,diatomic}.py`.  Exact arithmetic; the element table is a parameter.
-/
namespace Jaqmc.Presets
open Jaqmc.Geometry Jaqmc.MolEnergy
open scoped Classical

/-! ### Cells -/

/-- `np.deg2rad`. -/
noncomputable def rad (deg : ℝ) : ℝ := deg * Real.pi / 180

/-- `np.isclose(abs(angle), 90.0, atol=1e-12, rtol=0.0)`, solid/config/base.py:175, 181. -/
def near90 (angle : ℝ) : Prop := |(|angle| - 90)| ≤ 1e-12

/-- `_cosd_snap_90`, solid/config/base.py:174-177. -/
noncomputable def cosd (angle : ℝ) : ℝ := if near90 angle then 0 else Real.cos (rad angle)

/-- `_sind_snap_90`, solid/config/base.py:180-183 (`copysign(1.0, angle)`; an angle near ±90 is not zero). -/
noncomputable def sind (angle : ℝ) : ℝ := if near90 angle then (if 0 ≤ angle then 1 else -1) else Real.sin (rad angle)

/-- Three lattice vectors, the rows of the array. -/
abbrev Cell := Fin 3 → Vec 3

/-- `LatticeParams.to_array`, solid/config/base.py:65-87; `none` is the `ValueError`, or NaN and infinities when `sin gamma` is 0.
`np.isclose(cz_sqr, 0)` is `|cz_sqr| <= 1e-8`. -/
noncomputable def toArray (a b c alpha beta gamma : ℝ) : Option Cell :=
  let cosA := cosd alpha
  let cosB := cosd beta
  let cosG := cosd gamma
  let sinG := sind gamma
  if sinG = 0 then none else
  let cx := cosB
  let cy := (cosA - cosB * cosG) / sinG
  let cz2 := 1 - cx ^ 2 - cy ^ 2
  if cz2 < 0 ∨ |cz2| ≤ 1e-8 then none else
  some ![![a, 0, 0], ![b * cosG, b * sinG, 0], ![c * cx, c * cy, c * Real.sqrt cz2]]

/-- `lattice_vectors`, solid/config/base.py:135-139. -/
noncomputable def latticeVectors (angstrom : Bool) (L : Cell) : Cell :=
  if angstrom then fun i k => L i k * angstromInBohr else L

/-- `frac_coords @ lattice_vectors`, solid/config/base.py:153-155. -/
def position (frac : Vec 3) (L : Cell) : Vec 3 := fun k => ∑ i, frac i * L i k

/-- The check of `SolidAtomConfig`, solid/config/base.py:30-40. -/
def fracOk (frac : Vec 3) : Prop := ¬ ∃ k, frac k < 0 ∨ 1 ≤ frac k

/-- A crystal: the lattice in bohr, the atoms (element and fractional coordinates), the supercell. -/
structure Crystal where
  lattice : Cell
  atoms : List (String × Vec 3)
  supercell : Matrix (Fin 3) (Fin 3) ℤ

/-- `rock_salt_config`, rock_salt.py:27-77 (the geometry), with the resolution of the lattice; `none` is an exception. -/
noncomputable def rockSalt (symA symB : String) (latticeConstant : ℝ) (angstrom : Bool) (supercell : Fin 3 → ℤ) : Option Crystal :=
  let atoms := [(symA, (![0.0, 0.0, 0.0] : Vec 3)), (symB, ![0.5, 0.5, 0.5])]
  if ∃ a ∈ atoms, ¬ fracOk a.2 then none else
  let a := latticeConstant / Real.sqrt 2
  (toArray a a a 60 60 60).map fun L =>
    ⟨latticeVectors angstrom L, atoms, !![supercell 0, 0, 0; 0, supercell 1, 0; 0, 0, supercell 2]⟩

/-- `two_atom_chain`, two_atom_chain.py:21-74 (the geometry); the configuration's unit stays at its default, bohr. -/
noncomputable def twoAtomChain (sym : String) (bondLength : ℝ) (angstrom : Bool) (supercell : ℤ) (vacuum : ℝ) : Option Crystal :=
  let b := if angstrom then bondLength * angstromInBohr else bondLength
  let atoms := [(sym, (![0.0, 0.5, 0.5] : Vec 3)), (sym, ![0.5, 0.5, 0.5])]
  if ∃ a ∈ atoms, ¬ fracOk a.2 then none else
  some ⟨latticeVectors false ![![2 * b, 0, 0], ![0, vacuum, 0], ![0, 0, vacuum]], atoms, !![supercell, 0, 0; 0, 1, 0; 0, 0, 1]⟩

/-! ### Diatomic molecules -/

/-- `re.findall(r"[A-Z][a-z]*", formula)`. -/
def findSymbols : List Char → List (List Char)
  | [] => []
  | c :: cs =>
    if c.isUpper then (c :: cs.takeWhile Char.isLower) :: findSymbols (cs.dropWhile Char.isLower) else findSymbols cs
termination_by l => l.length
decreasing_by
  · have := (List.dropWhile_suffix Char.isLower (l := cs)).length_le
    simp only [List.length_cons]; omega
  · simp

/-- The second half of `_parse_diatomic_formula`, diatomic.py:37-49; `known` is membership in `elements.from_symbol`; `none` is the
`ValueError`. -/
def parseTwo (known : List Char → Bool) (formula : List Char) : Option (List Char × List Char) :=
  match findSymbols formula with
  | [s, t] => if s ++ t ≠ formula then none else if known s && known t then some (s, t) else none
  | _ => none

/-- `_parse_diatomic_formula`, diatomic.py:14-49. -/
def parseDiatomic (known : List Char → Bool) (formula : List Char) : Option (List Char × List Char) :=
  if formula.getLast? = some '2' then
    if known formula.dropLast then some (formula.dropLast, formula.dropLast) else parseTwo known formula
  else parseTwo known formula

/-- `diatomic_config`, diatomic.py:52-99 (the geometry, in bohr, the default unit of the configuration). -/
noncomputable def diatomic (known : List Char → Bool) (formula : List Char) (bondLength : ℝ) (angstrom : Bool) :
    Option (List (List Char × Vec 3)) :=
  (parseDiatomic known formula).map fun (s, t) =>
    let b := if angstrom then bondLength * angstromInBohr else bondLength
    let half := b / 2
    [(s, ![0, 0, -1 * half]), (t, ![0, 0, 1 * half])]

/-! ### Alkanes -/

/-- An atom of `alkane_config`: element, position in bohr, and its initial numbers of up and down electrons. -/
structure Placed where
  symbol : String
  coords : Vec 3
  spins : ℤ × ℤ

/-- `_TETRAHEDRAL_ANGLE_RAD`, alkane.py:17. -/
noncomputable def tetra : ℝ := rad 109.4712

/-- `_make_atom`, alkane.py:113-125. -/
noncomputable def makeAtom (sym : String) (p : Vec 3) (spins : ℤ × ℤ) : Placed := ⟨sym, fun k => p k * angstromInBohr, spins⟩

/-- `_shift(coords, _scale_vector(repeat_displacement, i))`, alkane.py:128-145. -/
def shift (p d : Vec 3) (i : ℕ) : Vec 3 := fun k => p k + d k * i

/-- `alkane_config`, alkane.py:20-110: the atoms and `s_z`; `carbon` is the charge of a carbon atom after core removal; `none` is the
`ValueError`. -/
noncomputable def alkane (repeatNum : ℕ) (carbon : ℤ) : Option (List Placed × ℝ) :=
  if repeatNum < 1 then none else
  let dxC := 1.55 * Real.sin (tetra / 2)
  let dyC := 1.55 * Real.cos (tetra / 2)
  let dxH := 1.09 * Real.sin (tetra / 2)
  let dyH := 1.09 * Real.cos (tetra / 2)
  let c1 : Vec 3 := ![-0.5 * dxC, -0.5 * dyC, 0]
  let c2 : Vec 3 := ![0.5 * dxC, 0.5 * dyC, 0]
  let h11 : Vec 3 := ![-0.5 * dxC, -0.5 * dyC - dyH, dxH]
  let h12 : Vec 3 := ![-0.5 * dxC, -0.5 * dyC - dyH, -dxH]
  let h21 : Vec 3 := ![0.5 * dxC, 0.5 * dyC + dyH, dxH]
  let h22 : Vec 3 := ![0.5 * dxC, 0.5 * dyC + dyH, -dxH]
  let d : Vec 3 := ![2 * dxC, 0, 0]
  let left : Vec 3 := ![-dxH - 0.5 * dxC, dyH - 0.5 * dyC, 0]
  let right : Vec 3 := ![dxH + 0.5 * dxC, -dyH + 0.5 * dyC, 0]
  let cs := (carbon / 2, carbon / 2)
  let atoms := [makeAtom "H" left (1, 0)] ++
    (List.range repeatNum).flatMap (fun i => [makeAtom "C" (shift c1 d i) cs, makeAtom "C" (shift c2 d i) cs,
      makeAtom "H" (shift h11 d i) (0, 1), makeAtom "H" (shift h12 d i) (1, 0),
      makeAtom "H" (shift h21 d i) (0, 1), makeAtom "H" (shift h22 d i) (1, 0)]) ++
    [makeAtom "H" (shift right d (repeatNum - 1)) (0, 1)]
  let fixed : List (ℤ × ℤ) := [(1, 0)] ++
    (List.range repeatNum).flatMap (fun _ => [cs, cs, (0, 1), (1, 0), (0, 1), (1, 0)]) ++ [(0, 1)]
  some (atoms, (((fixed.map fun s => s.1 - s.2).sum : ℤ) : ℝ) / 2)

end Jaqmc.Presets
