import Mathlib.Analysis.SpecialFunctions.Trigonometric.Basic
import Mathlib.Analysis.Real.Sqrt
/-!
What the geometry builders have to produce (C111).
-/
namespace Jaqmc.Presets.Spec

/-- The scalar product. -/
def dot (u v : Fin 3 → ℝ) : ℝ := ∑ k, u k * v k

/-- The distance of two points. -/
noncomputable def separation (p q : Fin 3 → ℝ) : ℝ := Real.sqrt (∑ k, (p k - q k) ^ 2)

/-- The cosine of an angle given in degrees. -/
noncomputable def cosDeg (θ : ℝ) : ℝ := Real.cos (θ * Real.pi / 180)

/-- The volume of the parallelepiped over three unit vectors with these angles, squared. -/
noncomputable def gram (α β γ : ℝ) : ℝ :=
  1 - cosDeg α ^ 2 - cosDeg β ^ 2 - cosDeg γ ^ 2 + 2 * cosDeg α * cosDeg β * cosDeg γ

/-- The point with fractional coordinates `t` in the cell `L`. -/
def at' (L : Fin 3 → Fin 3 → ℝ) (t : Fin 3 → ℝ) : Fin 3 → ℝ := fun k => ∑ i, t i * L i k

/-- The face-centred cubic cell of lattice constant `a`. -/
noncomputable def fcc (a : ℝ) : Fin 3 → Fin 3 → ℝ := ![![0, a / 2, a / 2], ![a / 2, 0, a / 2], ![a / 2, a / 2, 0]]

/-- One ångström in bohr. -/
noncomputable def angstrom : ℝ := 1 / 0.52917721067

end Jaqmc.Presets.Spec
