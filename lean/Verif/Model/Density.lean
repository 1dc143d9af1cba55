import Verif.Model.Stats
import Verif.Model.Geometry
/-!
Model of `src/jaqmc/estimator/density/{cartesian,fractional,spherical}.py` on top of `estimator/histogram.py` (`Model/Stats`), and of the
wiring of the fractional density in `app/solid/workflow.py:255-268`.  Exact real arithmetic.
-/
namespace Jaqmc.Density
open Jaqmc.Stats Jaqmc.Geometry Matrix
open scoped Classical

/-- The bin edges `jnp.histogramdd` builds from a bin count and a range: `linspace(lo, hi, bins + 1)`. -/
noncomputable def edges (bins : ℕ) (range : ℝ × ℝ) : List ℝ :=
  (List.range (bins + 1)).map fun (i : ℕ) => range.1 + i * ((range.2 - range.1) / bins)

/-- `CartesianAxis`, cartesian.py:16-30. -/
structure CAxis where
  direction : Vec 3
  bins : ℕ
  range : ℝ × ℝ

/-- `CartesianDensity._sorted_axes`, cartesian.py:56-57: the axes that are not `None`, in the order of the dictionary. -/
def cAxes (axes : List (String × Option CAxis)) : List CAxis := axes.filterMap Prod.snd

/-- The edges of `CartesianDensity._histogram_spec`, cartesian.py:59-65. -/
noncomputable def cEdges (axes : List (String × Option CAxis)) : List (List ℝ) := (cAxes axes).map fun a => edges a.bins a.range

/-- `CartesianDensity.extract` at one electron, cartesian.py:67-71. -/
noncomputable def cExtract (axes : List (String × Option CAxis)) (r : Vec 3) : List ℝ :=
  (cAxes axes).map fun (a : CAxis) => ∑ j, r j * (a.direction j / Geometry.norm a.direction)

/-- `FractionalAxis`, fractional.py:16-27; `lattice_index` is 0, 1 or 2 as documented. -/
structure FAxis where
  latticeIndex : Fin 3
  bins : ℕ

/-- `FractionalDensity._sorted_axes`, fractional.py:62-66: Python's sort is stable, as is insertion sort. -/
noncomputable def fAxes (axes : List (String × Option FAxis)) : List FAxis :=
  (axes.filterMap Prod.snd).insertionSort fun a b => a.latticeIndex ≤ b.latticeIndex

/-- The edges of `FractionalDensity._histogram_spec`, fractional.py:68-74. -/
noncomputable def fEdges (axes : List (String × Option FAxis)) : List (List ℝ) := (fAxes axes).map fun a => edges a.bins (0, 1)

/-- `electrons @ inv_lattice.T % 1.0`, fractional.py:77. -/
noncomputable def fracCoord (inv : Matrix (Fin 3) (Fin 3) ℝ) (r : Vec 3) (i : Fin 3) : ℝ := pmod ((r ᵥ* invᵀ) i) 1

/-- `FractionalDensity.extract` at one electron, fractional.py:76-79. -/
noncomputable def fExtract (axes : List (String × Option FAxis)) (inv : Matrix (Fin 3) (Fin 3) ℝ) (r : Vec 3) : List ℝ :=
  (fAxes axes).map fun a => fracCoord inv r a.latticeIndex

/-- `SphericalDensity._histogram_spec`, spherical.py:39-44. -/
noncomputable def sEdges (binsTheta : ℕ) (binsPhi : Option ℕ) : List (List ℝ) :=
  match binsPhi with
  | none => [edges binsTheta (0, Real.pi)]
  | some b => [edges binsTheta (0, Real.pi), edges b (-Real.pi, Real.pi)]

/-- `SphericalDensity.extract`, spherical.py:46-48. -/
noncomputable def sExtract (binsPhi : Option ℕ) (e : ℝ × ℝ) : List ℝ :=
  match binsPhi with
  | none => [e.1]
  | some _ => [e.1, e.2]

/-- A whole evaluation (histogram.py:90-131): devices, steps, walkers, electrons.  The raw counts of bin `idx`. -/
noncomputable def density {X : Type} (edges : List (List ℝ)) (extract : X → List ℝ) (run : List (List (List (List X)))) (idx : List ℕ) : ℝ :=
  histFinal edges (run.map fun steps => steps.map fun walkers => walkers.flatten.map extract) idx

/-- The Cartesian density of a run. -/
noncomputable def cartesianDensity (axes : List (String × Option CAxis)) (run : List (List (List (List (Vec 3))))) (idx : List ℕ) : ℝ :=
  density (cEdges axes) (cExtract axes) run idx

/-- The fractional density of a run, with the inverse of the lattice wired as in `app/solid/workflow.py:256-268`. -/
noncomputable def fractionalDensity (axes : List (String × Option FAxis)) (L : Matrix (Fin 3) (Fin 3) ℝ) (run : List (List (List (List (Vec 3)))))
    (idx : List ℕ) : ℝ :=
  density (fEdges axes) (fExtract axes L⁻¹) run idx

/-- The spherical density of a run. -/
noncomputable def sphericalDensity (binsTheta : ℕ) (binsPhi : Option ℕ) (run : List (List (List (List (ℝ × ℝ))))) (idx : List ℕ) : ℝ :=
  density (sEdges binsTheta binsPhi) (sExtract binsPhi) run idx

end Jaqmc.Density
