import Verif.Model.Geometry
import Mathlib.Analysis.SpecialFunctions.Complex.Arg
import Mathlib.Algebra.Polynomial.Derivative
import Mathlib.Analysis.SpecialFunctions.Exp
/-!
Model of `src/jaqmc/utils/atomic/gto.py` (`cart2sph`, `solid_harmonic`, `AtomicOrbitalEvaluator`) in exact real arithmetic.
The basis (read and normalised by PySCF) is an arbitrary input.  `jax.scipy.special.lpmn_values` is replaced by what it
computes: the normalised associated Legendre functions with the Condon-Shortley phase.
-/
namespace Jaqmc.Gto
open Geometry
open scoped Classical

/-- The Legendre polynomial of degree `l` by the formula of Rodrigues: `1/(2^l l!) d^l/dx^l (x^2-1)^l`. -/
noncomputable def legendreP (l : ℕ) : Polynomial ℝ :=
  Polynomial.C (1 / (2 ^ l * (l.factorial : ℝ))) * Polynomial.derivative^[l] ((Polynomial.X ^ 2 - 1) ^ l)

/-- Entry `[m, l]` of `jss.lpmn_values(l_max, l_max, x, is_normalized=True)` (JAX):
`(-1)^m sqrt((2l+1)/(4π) (l-m)!/(l+m)!) (1-x²)^(m/2) d^m/dx^m P_l(x)`, which is 0 for `m > l`. -/
noncomputable def lpmn (m l : ℕ) (x : ℝ) : ℝ :=
  (-1) ^ m * Real.sqrt ((2 * l + 1) / (4 * Real.pi) * ((l - m).factorial / (l + m).factorial))
    * Real.sqrt (1 - x ^ 2) ^ m * (Polynomial.derivative^[m] (legendreP l)).eval x

/-- `jnp.arctan2(y, x)`. -/
noncomputable def atan2 (y x : ℝ) : ℝ := Complex.arg ⟨x, y⟩

/-- `cart2sph`, gto.py:70-84: `(rho, phi, theta)`. -/
noncomputable def cart2sph (r : Vec 3) : ℝ × ℝ × ℝ :=
  (Geometry.norm r, atan2 (r 1) (r 0), atan2 (Real.sqrt (r 0 ^ 2 + r 1 ^ 2)) (r 2))

/-- `solid_harmonic`, gto.py:87-108, at one point: entry `[row, l]` of the array of shape `(2 l_max + 1, l_max + 1)`.  The
rows are the negative orders (the list for `m = 1, …, l_max` reversed), the order 0 and the positive orders. -/
noncomputable def solidHarmonic (lMax : ℕ) (r : Vec 3) (row l : ℕ) : ℝ :=
  let sph := cart2sph r
  let cosTheta := Real.cos sph.2.2
  let legendre := fun m => lpmn m l cosTheta
  let angle := fun m : ℕ => (m : ℝ) * sph.2.1
  let ms := (List.range (lMax + 1)).tail
  let sign := fun m : ℕ => (-1 : ℝ) ^ m
  let positive := ms.map fun m => Real.sqrt 2 * (legendre m * Real.cos (angle m)) * sign m
  let zero := [legendre 0]
  let negative := (ms.map fun m => Real.sqrt 2 * ((legendre m * Real.sin (angle m)) * sign m)).reverse
  (negative ++ zero ++ positive).getD row 0 * sph.1 ^ l

/-- One entry `[L, [alpha_1, w_11, …], [alpha_2, w_21, …], …]` of a basis. -/
structure Shell where
  l : ℕ
  prims : List (ℝ × List ℝ)

/-- `n_weights = len(basis[1]) - 1`, gto.py:201. -/
def Shell.nWeights (s : Shell) : ℕ := (s.prims.head?.map fun p => p.2.length).getD 0

/-- The lists of `_get_orbital_construction_dict` and the running `cshell_id`, gto.py:196-224. -/
structure Spec where
  alpha : List ℝ := []
  weights : List ℝ := []
  atomId : List ℕ := []
  cshellId : List ℕ := []
  radialIndex : List ℕ := []
  angularIndex : List (ℕ × ℤ × ℕ) := []
  next : ℕ := 0

/-- The order of the magnetic quantum numbers, gto.py:215-217. -/
def orders (l : ℕ) : List ℤ := if l = 1 then [1, -1, 0] else (List.range (2 * l + 1)).map fun i => (i : ℤ) - l

/-- The loop over the primitives, gto.py:203-211: only weights above `1e-12` in absolute value are stored. -/
noncomputable def addPrims (atom w : ℕ) (S : Spec) (prims : List (ℝ × List ℝ)) : Spec :=
  prims.foldl (fun S info =>
    if |info.2.getD w 0| > 1e-12 then
      { S with
        alpha := S.alpha ++ [info.1]
        weights := S.weights ++ [info.2.getD w 0]
        atomId := S.atomId ++ [atom]
        cshellId := S.cshellId ++ [S.next] }
    else S) S

/-- The body of the loop over `w`, gto.py:202-220. -/
noncomputable def addContraction (atom : ℕ) (sh : Shell) (S : Spec) (w : ℕ) : Spec :=
  let S := addPrims atom w S sh.prims
  { S with
    radialIndex := S.radialIndex ++ (List.range (2 * sh.l + 1)).map fun _ => S.next
    angularIndex := S.angularIndex ++ (orders sh.l).map fun m => (sh.l, m, atom)
    next := S.next + 1 }

/-- `_get_orbital_construction_dict`, gto.py:196-224, for atoms given by their shells and positions. -/
noncomputable def construct (atoms : List (List Shell × Vec 3)) : Spec :=
  (atoms.zipIdx).foldl (fun S a => a.1.1.foldl (fun S sh => (List.range sh.nWeights).foldl (addContraction a.2 sh) S) S) {}

/-- `_get_max_l`, gto.py:148-155. -/
def maxL (atoms : List (List Shell × Vec 3)) : ℕ := (atoms.flatMap fun a => a.1.map Shell.l).foldr max 0

/-- `AtomicOrbitalEvaluator.__call__`, gto.py:226-284, at one coordinate: the values of all contracted orbitals.  Gathering
out of range clamps (JAX). -/
noncomputable def evaluate (atoms : List (List Shell × Vec 3)) (x : Vec 3) : List ℝ :=
  let S := construct atoms
  let L := maxL atoms
  let dr := fun a : ℕ => fun c => x c - ((atoms.map Prod.snd).getD a (fun _ => 0)) c
  let rSqr := fun a => Geometry.norm (dr a) ^ 2
  let g := fun i => Real.exp (-(S.alpha.getD i 0) * rSqr (S.atomId.getD i 0)) * S.weights.getD i 0
  let numSegments := S.cshellId.foldr max 0 + 1
  let seg := fun c => ((List.range S.alpha.length).filter fun i => S.cshellId.getD i 0 = c).foldl (fun acc i => acc + g i) 0
  let radial := S.radialIndex.map fun c => seg (min c (numSegments - 1))
  let angular := S.angularIndex.map fun t => solidHarmonic L (dr t.2.2) (t.2.1 + (L : ℤ)).toNat t.1
  (angular.zip radial).map fun p => p.1 * p.2

end Jaqmc.Gto
