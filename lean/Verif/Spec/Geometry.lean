import Verif.Model.Geometry
/-! Specifications for C28-C33 and C57. -/
namespace Jaqmc.Geometry.Spec
open Jaqmc.Geometry Matrix

variable {d : Nat}

/-- The lattice translation with integer coefficients `m`: `Σ_i m_i a_i`, the `a_i` being the rows of `L`. -/
def translation (L : Matrix (Fin d) (Fin d) ℝ) (m : Fin d → ℤ) : Vec d := fun k => ∑ i, (m i : ℝ) * L i k

/-- Euclidean length. -/
noncomputable def length (v : Vec d) : ℝ := Real.sqrt (∑ k, v k * v k)

/-- `v` is a periodic image of `u`. -/
def Image (L : Matrix (Fin d) (Fin d) ℝ) (u v : Vec d) : Prop := ∃ m, ∀ k, v k = u k + translation L m k

/-- `v` is a shortest periodic image of `u`. -/
def Shortest (L : Matrix (Fin d) (Fin d) ℝ) (u v : Vec d) : Prop :=
  Image L u v ∧ ∀ w, Image L u w → length v ≤ length w

/-- `p` lies in the home cell: its coefficients in the lattice basis are in `[0, 1)`. -/
def InCell (L : Matrix (Fin d) (Fin d) ℝ) (p : Vec d) : Prop :=
  ∃ f : Fin d → ℝ, (∀ i, 0 ≤ f i ∧ f i < 1) ∧ ∀ k, p k = ∑ i, f i * L i k

/-- Scalar product in space. -/
def dot (u v : Fin 3 → ℝ) : ℝ := u 0 * v 0 + u 1 * v 1 + u 2 * v 2

end Jaqmc.Geometry.Spec
