import Mathlib.Analysis.Real.Sqrt
import Mathlib.Analysis.SpecialFunctions.Trigonometric.Arctan
import Mathlib.Analysis.SpecialFunctions.Trigonometric.Inverse
import Mathlib.Analysis.SpecialFunctions.Complex.Arg
import Mathlib.LinearAlgebra.Matrix.NonsingularInverse
import Mathlib.Data.List.Sort
import Verif.Model.Geometry
/-!
Model of `src/jaqmc/estimator/ecp/{quadrature,nonlocal_integral,estimator}.py` in exact arithmetic.
-/
namespace Jaqmc.Ecp
open Jaqmc.Geometry Matrix
open scoped Classical

/-! ### quadrature.py -/

/-- `_expand_sign`, quadrature.py:21-41.  (Python fails on the empty list; it is never passed one.) -/
noncomputable def expandSign : List ℝ → List (List ℝ)
  | [] => []
  | [v] => if v ≠ 0 then [[v], [-v]] else [[v]]
  | v :: w :: rest =>
    let r := expandSign (w :: rest)
    if v ≠ 0 then r.map (v :: ·) ++ r.map (-v :: ·) else r.map (v :: ·)

/-- A row of the points array. -/
noncomputable def toVec (l : List ℝ) : Vec 3 := ![l.getD 0 0, l.getD 1 0, l.getD 2 0]

/-- A quadrature object: `pts` and `coefs`, quadrature.py:44-56. -/
structure Rule where
  pts : List (Vec 3)
  coefs : List ℝ

/-- `Octahedron._coef_table`, quadrature.py:146-156. -/
noncomputable def octCoefs : ℕ → Option (List ℝ)
  | 6 => some (List.replicate 6 (1 / 6))
  | 18 => some (List.replicate 6 (1 / 30) ++ List.replicate 12 (1 / 15))
  | 26 => some (List.replicate 6 (1 / 21) ++ List.replicate 12 (4 / 105) ++ List.replicate 8 (27 / 840))
  | 50 => some (List.replicate 6 (4 / 315) ++ List.replicate 12 (64 / 2835) ++ List.replicate 8 (27 / 1280) ++
      List.replicate 24 (14641 / 725760))
  | _ => none

/-- The points of the octahedral rules, quadrature.py:166-193. -/
noncomputable def octPoints : List (List ℝ) :=
  let p := 1 / Real.sqrt 2
  let q := 1 / Real.sqrt 3
  let r := 1 / Real.sqrt 11
  let s := 3 / Real.sqrt 11
  expandSign [1, 0, 0] ++ expandSign [0, 1, 0] ++ expandSign [0, 0, 1] ++
  expandSign [p, p, 0] ++ expandSign [p, 0, p] ++ expandSign [0, p, p] ++
  expandSign [q, q, q] ++
  expandSign [r, r, s] ++ expandSign [r, s, r] ++ expandSign [s, r, r]

/-- `Octahedron.__init__`, quadrature.py:158-195; `none` is the `ValueError`. -/
noncomputable def octahedron (n : ℕ) : Option Rule :=
  (octCoefs n).map fun c => ⟨(octPoints.take n).map toVec, c⟩

/-- `Icosahedron._coef_table`, quadrature.py:205-208. -/
noncomputable def icoCoefs : ℕ → Option (List ℝ)
  | 12 => some (List.replicate 12 (1 / 12))
  | 32 => some (List.replicate 12 (5 / 168) ++ List.replicate 20 (27 / 840))
  | _ => none

/-- The points of the icosahedral rules in polar coordinates `(theta, phi)`, quadrature.py:217-242. -/
noncomputable def icoPolars : List (ℝ × ℝ) :=
  let arctan2 := Real.arctan 2
  let down := Real.sqrt (15 + 6 * Real.sqrt 5)
  let theta1 := Real.arccos ((2 + Real.sqrt 5) / down)
  let theta2 := Real.arccos (1 / down)
  let even := fun k : ℕ => 2 * (k : ℝ) * Real.pi / 5
  let odd := fun k : ℕ => (2 * (k : ℝ) + 1) * Real.pi / 5
  [(0, 0), (Real.pi, 0)] ++
  (List.range 5).map (fun k => (arctan2, even k)) ++
  (List.range 5).map (fun k => (Real.pi - arctan2, odd k)) ++
  (List.range 5).map (fun k => (theta1, odd k)) ++
  (List.range 5).map (fun k => (theta2, odd k)) ++
  (List.range 5).map (fun k => (Real.pi - theta1, even k)) ++
  (List.range 5).map (fun k => (Real.pi - theta2, even k))

/-- Conversion to Cartesian coordinates, quadrature.py:245-252. -/
noncomputable def cartesian (a : ℝ × ℝ) : Vec 3 :=
  ![Real.sin a.1 * Real.cos a.2, Real.sin a.1 * Real.sin a.2, Real.cos a.1]

/-- `Icosahedron.__init__`, quadrature.py:210-254. -/
noncomputable def icosahedron (n : ℕ) : Option Rule :=
  (icoCoefs n).map fun c => ⟨(icoPolars.take n).map cartesian, c⟩

/-- The selection by identifier, quadrature.py:260-289; the split of `"{type}_{n}"` and `int` are in the arguments, the
registry is only a cache.  `none` is the `ValueError`. -/
noncomputable def getQuadrature (kind : String) (n : ℕ) : Option Rule :=
  if kind = "octahedron" then octahedron n else if kind = "icosahedron" then icosahedron n else none

/-- `Quadrature.integrate`, quadrature.py:122-133. -/
noncomputable def Rule.integrate (q : Rule) (values : List ℂ) : ℂ :=
  (List.zipWith (fun (v : ℂ) (c : ℝ) => v * (c : ℂ)) values q.coefs).sum * 4 * Real.pi

/-- One random rotation, quadrature.py:71-104, from the two uniform draws `u1` (angle) and `u2`. -/
noncomputable def rotation (u1 u2 : ℝ) : Matrix (Fin 3) (Fin 3) ℝ :=
  let phi := u1 * Real.pi * 2
  let cosT := 1 - 2 * u2
  let sinT := Real.sqrt (1 - cosT ^ 2)
  let sinP := Real.sin phi
  let cosP := Real.cos phi
  let m11 := sinP ^ 2 + cosT * cosP ^ 2
  let m12 := sinP * cosP * (cosT - 1)
  let m13 := sinT * cosP
  let m22 := cosP ^ 2 + cosT * sinP ^ 2
  let m23 := sinT * sinP
  !![m11, m12, m13; m12, m22, m23; -m13, -m23, cosT]

/-- `sample_rotated_points`, quadrature.py:106-120, for one sample: `einsum("jk,lk->lj")`. -/
noncomputable def Rule.rotated (q : Rule) (R : Matrix (Fin 3) (Fin 3) ℝ) : List (Vec 3) := q.pts.map (R *ᵥ ·)

/-! ### nonlocal_integral.py -/

/-- `legendre_polynomials`, nonlocal_integral.py:186-213: the `l`-th row, for `l < num_l ≤ 3`. -/
noncomputable def legendre (l : ℕ) (x : ℝ) : ℝ :=
  match l with
  | 0 => 1
  | 1 => x
  | _ => (3 * x ^ 2 - 1) / 2

/-- `_wrap_with_bloch_phase`, nonlocal_integral.py:164-183, on one position. -/
noncomputable def wrapBloch (L : Matrix (Fin 3) (Fin 3) ℝ) (twist : Option (Vec 3)) (p : Vec 3) : Vec 3 × ℂ :=
  let w := wrap L p
  match twist with
  | some t =>
    let frac := (fun k => p k - w k) ᵥ* L⁻¹
    let kdot := 2 * Real.pi * ∑ k, frac k * pmod (t k) 1
    (w, Complex.exp (Complex.I * (kdot : ℂ)))
  | none => (w, 1)

/-- What is known about the boundary: `lattice` and `twist`, nonlocal_integral.py:23-28. -/
structure Boundary where
  lattice : Option (Matrix (Fin 3) (Fin 3) ℝ)
  twist : Option (Vec 3)

variable {n : ℕ}

/-- The electrons with electron `e` put at `p`, nonlocal_integral.py:114-118. -/
def displace (r : Fin n → Vec 3) (e : Fin n) (p : Vec 3) : Fin n → Vec 3 := Function.update r e p

/-- `wf_ratio`, nonlocal_integral.py:80-91: `phase_wf` returns the phase and the logarithm of the modulus. -/
noncomputable def ratio (phaseWf : (Fin n → Vec 3) → ℂ × ℝ) (r r' : Fin n → Vec 3) : ℂ :=
  (phaseWf r').1 * (starRingEnd ℂ) (phaseWf r).1 * Complex.exp (((phaseWf r').2 - (phaseWf r).2 : ℝ) : ℂ)

/-- The ratios at one displaced position, nonlocal_integral.py:121-131. -/
noncomputable def displacedRatio (b : Boundary) (phaseWf : (Fin n → Vec 3) → ℂ × ℝ) (r : Fin n → Vec 3) (e : Fin n)
    (p : Vec 3) : ℂ :=
  match b.lattice with
  | some L =>
    let wb := wrapBloch L b.twist p
    ratio phaseWf r (displace r e wb.1) * wb.2
  | none => ratio phaseWf r (displace r e p)

/-- `electron_contribution`, nonlocal_integral.py:93-144, for channel `l`: `points` are the rotated quadrature points of
this electron. -/
noncomputable def channelIntegral (q : Rule) (b : Boundary) (phaseWf : (Fin n → Vec 3) → ℂ × ℝ) (r : Fin n → Vec 3) (e : Fin n)
    (atom : Vec 3) (points : List (Vec 3)) (l : ℕ) : ℂ :=
  let vec := fun k => r e k - atom k
  let dist := Geometry.norm vec
  let dir := fun k => vec k / dist
  let values := points.map fun u =>
    ((legendre l (∑ k, u k * dir k) : ℝ) : ℂ) * displacedRatio b phaseWf r e (fun k => atom k + dist * u k)
  q.integrate values * (2 * l + 1) / (4 * Real.pi)

/-! ### estimator.py -/

/-- One element's potential in the PySCF format: the core electrons and, per angular momentum (`-1` is local), the groups of
`(alpha, coeff)` pairs indexed by the power, estimator.py:197-208. -/
structure PyscfEcp where
  core : ℕ
  channels : List (ℤ × List (List (ℝ × ℝ)))

/-- One padded entry of `ECPRadial`: `(alpha, coeff, power)`; unused entries are zero. -/
abbrev Term := ℝ × ℝ × ℤ

/-- The terms of one channel in the order of the loops of `from_pyscf`, estimator.py:253-258. -/
def flattenTerms (groups : List (List (ℝ × ℝ))) : List Term :=
  ((groups.zipIdx).map fun (g, k) => g.map fun (a, c) => (a, c, (k : ℤ) - 2)).flatten

/-- Writing the terms of a channel into the padded row, estimator.py:249-258: later entries for the same angular momentum
overwrite the earlier ones position by position. -/
def writeRow (row new : List Term) : List Term := new ++ row.drop new.length

/-- `max_terms`, estimator.py:227-232. -/
def maxTerms (atoms : List PyscfEcp) : ℕ :=
  (atoms.flatMap fun a => a.channels.map fun c => ((c.2.map List.length).sum)).foldl max 0

/-- The padded row of channel `ch` (`ch = l + 1`) of one atom, estimator.py:234-258. -/
def paddedRow (width : ℕ) (a : PyscfEcp) (ch : ℕ) : List Term :=
  a.channels.foldl (fun row c => if c.1 + 1 = (ch : ℤ) then writeRow row (flattenTerms c.2) else row)
    (List.replicate width (0, 0, 0))

/-- `ECPRadial.__call__`, estimator.py:266-279, for one row and one distance; `r ** power` for a positive distance. -/
noncomputable def radialValue (row : List Term) (r : ℝ) : ℝ :=
  (row.map fun t => t.2.1 * r ^ t.2.2 * Real.exp (-t.1 * r ^ 2)).sum

/-- `num_channels`, estimator.py:92-95: over every element of the dictionary. -/
def numChannels (coeffs : List (String × PyscfEcp)) : ℕ :=
  (coeffs.flatMap fun e => e.2.channels.map fun c => (c.1 + 2).toNat).foldl max 0

/-- `_ecp_atom_indices`, estimator.py:98-100. -/
def ecpAtoms (coeffs : List (String × PyscfEcp)) (symbols : List String) : List (ℕ × PyscfEcp) :=
  (symbols.zipIdx).filterMap fun (s, i) => (coeffs.lookup s).map fun p => (i, p)

/-- `_select_nearest_cores`, estimator.py:282-319, for one electron: the indices of the atoms kept; `argsort` is stable. -/
noncomputable def nearest {m : ℕ} (maxCore : ℕ) (dist : Fin m → ℝ) : List (Fin m) :=
  if m ≤ maxCore then List.finRange m
  else ((List.finRange m).mergeSort (fun i j => dist i ≤ dist j)).take maxCore

/-- The estimator after `init`, estimator.py:84-115. -/
structure Estimator where
  maxCore : ℕ
  rule : Rule
  boundary : Boundary
  coeffs : List (String × PyscfEcp)
  symbols : List String

/-- The atoms with a potential, in order. -/
noncomputable def Estimator.atoms (E : Estimator) : List (ℕ × PyscfEcp) := ecpAtoms E.coeffs E.symbols

/-- `evaluate_single_walker`, estimator.py:117-156.  `atomPos i` is the position of atom `i`; `disp` is the displacement
function (`distance_fn` in a crystal, plain subtraction otherwise, estimator.py:133-137); `R e` are the rotations.  `none`
is an exception (in `init`: no atom with a potential; in the integral, nonlocal_integral.py:43-161, whose loops over electrons,
atoms and channels are the sums here: more than three nonlocal channels, which is not reached when there is no atom to
integrate around, nonlocal_integral.py:66-72). -/
noncomputable def Estimator.energy (E : Estimator) (disp : Vec 3 → Vec 3 → Vec 3) (phaseWf : (Fin n → Vec 3) → ℂ × ℝ)
    (r : Fin n → Vec 3) (atomPos : ℕ → Vec 3) (R : Fin n → Matrix (Fin 3) (Fin 3) ℝ) : Option ℂ :=
  let atoms := E.atoms
  if atoms = [] then none
  else
    let width := maxTerms (atoms.map (·.2))
    let nch := numChannels E.coeffs
    let vec := fun (e : Fin n) (a : Fin atoms.length) => disp (r e) (atomPos (atoms.get a).1)
    let dist := fun e a => Geometry.norm (vec e a)
    let radial := fun e a ch => radialValue (paddedRow width (atoms.get a).2 ch) (dist e a)
    let loc : ℝ := ∑ e, ∑ a, radial e a 0
    let sel := fun e => nearest E.maxCore (dist e)
    if nch - 1 > 3 ∧ E.maxCore ≠ 0 then none
    else
      let nonloc : ℂ := ∑ e, ((sel e).map fun a =>
        ∑ l : Fin (nch - 1), channelIntegral E.rule E.boundary phaseWf r e (fun k => r e k - vec e a k) (E.rule.rotated (R e)) l *
          (radial e a (l + 1) : ℂ)).sum
      some ((loc : ℂ) + nonloc)

end Jaqmc.Ecp
