import Verif.Props.Geometry
import Mathlib.LinearAlgebra.Matrix.Determinant.Basic
/-! # Periodic distance features and moves on the sphere: C31, C33, C57 -/
namespace Jaqmc.Geometry.Props
open Jaqmc.Geometry Jaqmc.Geometry.Spec Matrix
open scoped Classical

variable {d s : Nat}

/-! ### C31 -/

theorem omega_symB (t : Symmetry) (L : Matrix (Fin 3) (Fin 3) ℝ) (r : Vec 3) (l : Fin (symRows t).length) :
    omega (symB t L) r l = 2 * Real.pi * ∑ j, symMat t l j * (r ᵥ* L⁻¹) j := by
  unfold omega symB
  simp only [Matrix.mul_apply, Matrix.smul_apply, Matrix.transpose_apply, smul_eq_mul, vecMul_apply']
  simp only [Finset.mul_sum]
  rw [Finset.sum_comm]
  apply Finset.sum_congr rfl; intro j _
  apply Finset.sum_congr rfl; intro k _
  ring

theorem omega_translate (t : Symmetry) (L : Matrix (Fin 3) (Fin 3) ℝ) (h : IsUnit L.det) (r : Vec 3)
    (m : Fin 3 → ℤ) (l : Fin (symRows t).length) :
    ∃ z : ℤ, omega (symB t L) (fun k => r k + translation L m k) l = omega (symB t L) r l + z * (2 * Real.pi) := by
  refine ⟨∑ j, (symRows t).get l j * m j, ?_⟩
  rw [omega_symB, omega_symB]
  have e : (fun k => r k + translation L m k) = r + (fun i => (m i : ℝ)) ᵥ* L := rfl
  rw [e, Matrix.add_vecMul, vecMul_inv L h]
  simp only [Pi.add_apply, mul_add, Finset.sum_add_distrib]
  congr 1
  push_cast
  rw [mul_comm]
  rfl

theorem nuWrap_add (w : ℝ) (z : ℤ) : nuWrap (w + z * (2 * Real.pi)) = nuWrap w := by
  unfold nuWrap
  have hp : (2 * Real.pi) ≠ 0 := by positivity
  have : (w + z * (2 * Real.pi) + Real.pi) / (2 * Real.pi) = (w + Real.pi) / (2 * Real.pi) + z := by
    field_simp; ring
  rw [this, Int.floor_add_intCast]
  push_cast; ring

/-- C31, periodicity: moving a particle by a lattice vector leaves both the distances and the relative
coordinates of both kinds of features as they are, for every symmetry type and every choice of the vectors `a`. -/
theorem c31_periodic (t : Symmetry) (L : Matrix (Fin 3) (Fin 3) ℝ) (h : IsUnit L.det)
    (a : Matrix (Fin (symRows t).length) (Fin 3) ℝ) (r : Vec 3) (m : Fin 3 → ℤ) :
    triDistance a (symB t L) (fun k => r k + translation L m k) = triDistance a (symB t L) r ∧
    nuDistance a (symB t L) (fun k => r k + translation L m k) = nuDistance a (symB t L) r := by
  have hs : ∀ l, Real.sin (omega (symB t L) (fun k => r k + translation L m k) l) = Real.sin (omega (symB t L) r l) := by
    intro l; obtain ⟨z, hz⟩ := omega_translate t L h r m l
    rw [hz, Real.sin_add_int_mul_two_pi]
  have hc : ∀ l, Real.cos (omega (symB t L) (fun k => r k + translation L m k) l) = Real.cos (omega (symB t L) r l) := by
    intro l; obtain ⟨z, hz⟩ := omega_translate t L h r m l
    rw [hz, Real.cos_add_int_mul_two_pi]
  have hw : ∀ l, nuWrap (omega (symB t L) (fun k => r k + translation L m k) l) = nuWrap (omega (symB t L) r l) := by
    intro l; obtain ⟨z, hz⟩ := omega_translate t L h r m l
    rw [hz, nuWrap_add]
  constructor
  · unfold triDistance triSq
    simp only [hs, hc]
  · unfold nuDistance nuSq
    simp only [hw]

theorem comb_mul (a : Matrix (Fin s) (Fin d) ℝ) (c : Fin s → ℝ) :
    ∑ k, (∑ i, c i * a i k) * (∑ i, c i * a i k) = ∑ i, ∑ j, c i * c j * (∑ k, a i k * a j k) := by
  have : ∀ k, (∑ i, c i * a i k) * (∑ i, c i * a i k) = ∑ i, ∑ j, c i * c j * (a i k * a j k) := by
    intro k
    rw [Finset.sum_mul_sum]
    apply Finset.sum_congr rfl; intro i _
    apply Finset.sum_congr rfl; intro j _
    ring
  rw [Finset.sum_congr rfl (fun k _ => this k), Finset.sum_comm]
  apply Finset.sum_congr rfl; intro i _
  rw [Finset.sum_comm]
  apply Finset.sum_congr rfl; intro j _
  rw [Finset.mul_sum]

theorem triSq_eq (a b : Matrix (Fin s) (Fin d) ℝ) (r : Vec d) :
    triSq a b r = (∑ k, (∑ i, (1 - Real.cos (omega b r i)) * a i k) * (∑ i, (1 - Real.cos (omega b r i)) * a i k))
      + ∑ k, (∑ i, Real.sin (omega b r i) * a i k) * (∑ i, Real.sin (omega b r i) * a i k) := by
  rw [comb_mul, comb_mul, ← Finset.sum_add_distrib]
  unfold triSq
  apply Finset.sum_congr rfl; intro i _
  rw [← Finset.sum_add_distrib]
  apply Finset.sum_congr rfl; intro j _
  ring

theorem nuWrap_bounds (w : ℝ) : |nuWrap w| ≤ Real.pi := by
  have hp := Real.pi_pos
  have h1 := Int.floor_le ((w + Real.pi) / (2 * Real.pi))
  have h2 := Int.lt_floor_add_one ((w + Real.pi) / (2 * Real.pi))
  unfold nuWrap
  rw [le_div_iff₀ (by positivity)] at h1
  rw [div_lt_iff₀ (by positivity)] at h2
  rw [abs_le]
  constructor <;> nlinarith

theorem f_sub_g (w : ℝ) (h : |w| ≤ Real.pi) :
    0 ≤ scaledF w ^ 2 - scaledG w ^ 2 ∧ (scaledF w ^ 2 = scaledG w ^ 2 → w = 0) := by
  have hp := Real.pi_pos
  have ht : |w / Real.pi| = |w| / Real.pi := by rw [abs_div, abs_of_pos hp]
  have t0 : 0 ≤ |w| / Real.pi := by positivity
  have t1 : |w| / Real.pi ≤ 1 := by rw [div_le_one hp]; exact h
  have hw : |w| = Real.pi * (|w| / Real.pi) := by field_simp
  unfold scaledF scaledG
  rw [ht]
  have e : (w * (1 - 3 / 2 * (|w| / Real.pi) + 1 / 2 * (|w| / Real.pi) ^ 2)) ^ 2
      = (|w| * (1 - 3 / 2 * (|w| / Real.pi) + 1 / 2 * (|w| / Real.pi) ^ 2)) ^ 2 := by
    rw [mul_pow, mul_pow, sq_abs]
  rw [e]
  have ident : (|w| * (1 - (|w| / Real.pi) ^ 3 / 4)) ^ 2
      - (|w| * (1 - 3 / 2 * (|w| / Real.pi) + 1 / 2 * (|w| / Real.pi) ^ 2)) ^ 2
      = |w| ^ 2 * ((|w| / Real.pi) * (3 / 2 - (|w| / Real.pi) / 2 - (|w| / Real.pi) ^ 2 / 4)
        * ((1 - (|w| / Real.pi) ^ 3 / 4) + (1 - 3 / 2 * (|w| / Real.pi) + 1 / 2 * (|w| / Real.pi) ^ 2))) := by
    ring
  generalize hT : |w| / Real.pi = T at *
  have p1 : 0 < 3 / 2 - T / 2 - T ^ 2 / 4 := by nlinarith
  have p2 : 0 < (1 - T ^ 3 / 4) + (1 - 3 / 2 * T + 1 / 2 * T ^ 2) := by
    have a1 : T ^ 3 ≤ 1 := pow_le_one₀ t0 t1
    nlinarith
  constructor
  · rw [ident]
    positivity
  · intro heq
    have : |w| ^ 2 * (T * (3 / 2 - T / 2 - T ^ 2 / 4) * ((1 - T ^ 3 / 4) + (1 - 3 / 2 * T + 1 / 2 * T ^ 2))) = 0 := by
      rw [← ident, heq, sub_self]
    rcases mul_eq_zero.1 this with h0 | h0
    · simpa using h0
    · rcases mul_eq_zero.1 h0 with h1 | h1
      · rcases mul_eq_zero.1 h1 with h2 | h2
        · rw [h2] at hw; simpa using hw
        · exact absurd h2 p1.ne'
      · exact absurd h1 p2.ne'

theorem nuSq_eq (a b : Matrix (Fin s) (Fin d) ℝ) (r : Vec d) :
    nuSq a b r = (∑ i, (∑ k, a i k * a i k) * (scaledF (nuWrap (omega b r i)) ^ 2 - scaledG (nuWrap (omega b r i)) ^ 2))
      + ∑ k, (∑ i, scaledG (nuWrap (omega b r i)) * a i k) * (∑ i, scaledG (nuWrap (omega b r i)) * a i k) := by
  rw [comb_mul]
  unfold nuSq
  dsimp only
  generalize (fun i => nuWrap (omega b r i)) = w
  have h1 : ∀ i, (norm (a i) * scaledF (nuWrap (omega b r i))) ^ 2
      = (∑ k, a i k * a i k) * scaledF (nuWrap (omega b r i)) ^ 2 := by
    intro i
    rw [mul_pow]
    congr 1
    unfold norm
    rw [Real.sq_sqrt (Finset.sum_nonneg (fun k _ => sq_nonneg _))]
    apply Finset.sum_congr rfl; intro k _; ring
  rw [Finset.sum_congr rfl (fun i _ => h1 i), ← Finset.sum_add_distrib, ← Finset.sum_add_distrib]
  apply Finset.sum_congr rfl; intro i _
  have h2 : ∑ j, (∑ k, a i k * a j k) * (scaledG (nuWrap (omega b r i)) * scaledG (nuWrap (omega b r j)))
        * (1 - if i = j then 1 else 0)
      = (∑ j, scaledG (nuWrap (omega b r i)) * scaledG (nuWrap (omega b r j)) * ∑ k, a i k * a j k)
        - (∑ k, a i k * a i k) * scaledG (nuWrap (omega b r i)) ^ 2 := by
    have : ∀ j, (∑ k, a i k * a j k) * (scaledG (nuWrap (omega b r i)) * scaledG (nuWrap (omega b r j)))
        * (1 - if i = j then 1 else 0)
      = scaledG (nuWrap (omega b r i)) * scaledG (nuWrap (omega b r j)) * (∑ k, a i k * a j k)
        - (if i = j then (∑ k, a i k * a j k) * (scaledG (nuWrap (omega b r i)) * scaledG (nuWrap (omega b r j))) else 0) := by
      intro j; split <;> ring
    rw [Finset.sum_congr rfl (fun j _ => this j), Finset.sum_sub_distrib, Finset.sum_ite_eq]
    simp only [Finset.mem_univ, if_true]
    ring
  rw [h2]; ring

/-- C31, the root is real: the quantity under the square root is never negative, for both kinds of features and
any vectors `a`, `b` whatsoever. -/
theorem c31_nonneg (a b : Matrix (Fin s) (Fin d) ℝ) (r : Vec d) : 0 ≤ triSq a b r ∧ 0 ≤ nuSq a b r := by
  constructor
  · rw [triSq_eq]
    exact add_nonneg (Finset.sum_nonneg (fun k _ => mul_self_nonneg _))
      (Finset.sum_nonneg (fun k _ => mul_self_nonneg _))
  · rw [nuSq_eq]
    refine add_nonneg (Finset.sum_nonneg (fun i _ => mul_nonneg ?_ ?_))
      (Finset.sum_nonneg (fun k _ => mul_self_nonneg _))
    · exact Finset.sum_nonneg (fun k _ => mul_self_nonneg _)
    · exact (f_sub_g _ (nuWrap_bounds _)).1

/-! ### C57 -/

/-- The index of the `j`-th of the three basis rows, which come first in every set. -/
def baseRow (t : Symmetry) (j : Fin 3) : Fin (symRows t).length := ⟨j, by cases t <;> simp [symRows] <;> omega⟩

theorem baseRow_mat (t : Symmetry) (j k : Fin 3) : symMat t (baseRow t j) k = if j = k then 1 else 0 := by
  cases t <;> fin_cases j <;> fin_cases k <;> simp [symMat, baseRow, symRows]

theorem sum_sq_zero {u : Fin d → ℝ} (h : ∑ k, u k * u k = 0) : ∀ k, u k = 0 := by
  intro k
  have := (Finset.sum_eq_zero_iff_of_nonneg (fun i _ => mul_self_nonneg (u i))).1 h k (Finset.mem_univ k)
  exact mul_self_eq_zero.1 this

theorem gram_det (t : Symmetry) : ((symMat t)ᵀ * symMat t).det ≠ 0 := by
  intro h0
  obtain ⟨v, hv, h1⟩ := Matrix.exists_mulVec_eq_zero_iff.2 h0
  have h2 : (symMat t *ᵥ v) ⬝ᵥ (symMat t *ᵥ v) = 0 := by
    rw [Matrix.dotProduct_mulVec, Matrix.vecMul_mulVec, ← Matrix.dotProduct_mulVec, h1]
    simp
  have h3 : ∀ i, (symMat t *ᵥ v) i = 0 := sum_sq_zero h2
  apply hv
  funext j
  have h4 := h3 (baseRow t j)
  unfold Matrix.mulVec dotProduct at h4
  simp only [baseRow_mat] at h4
  simpa using h4

theorem base_det (L : Matrix (Fin 3) (Fin 3) ℝ) (h : IsUnit L.det) :
    IsUnit (((2 * Real.pi) • (L⁻¹)ᵀ : Matrix (Fin 3) (Fin 3) ℝ)).det := by
  rw [Matrix.det_smul, Matrix.det_transpose]
  have hp : (2 * Real.pi) ^ Fintype.card (Fin 3) ≠ 0 := by positivity
  have := Matrix.isUnit_nonsing_inv_det L h
  exact (isUnit_iff_ne_zero.2 hp).mul this

theorem gramB_det (t : Symmetry) (L : Matrix (Fin 3) (Fin 3) ℝ) (h : IsUnit L.det) :
    IsUnit ((symB t L)ᵀ * symB t L).det := by
  have hB := base_det L h
  have : (symB t L)ᵀ * symB t L
      = ((2 * Real.pi) • (L⁻¹)ᵀ)ᵀ * ((symMat t)ᵀ * symMat t) * ((2 * Real.pi) • (L⁻¹)ᵀ) := by
    unfold symB
    rw [Matrix.transpose_mul]
    simp only [Matrix.mul_assoc]
  rw [this, Matrix.det_mul, Matrix.det_mul, Matrix.det_transpose]
  exact (hB.mul (isUnit_iff_ne_zero.2 (gram_det t))).mul hB

/-- The vectors `a` carry the same linear relations as the rows of the integer matrix. -/
theorem comb_zero (t : Symmetry) (L : Matrix (Fin 3) (Fin 3) ℝ) (h : IsUnit L.det)
    (c : Fin (symRows t).length → ℝ) :
    (∀ k, ∑ i, c i * symA t L i k = 0) ↔ ∀ j, ∑ i, c i * symMat t i j = 0 := by
  have hG := gramB_det t L h
  have hB := base_det L h
  have eA : symA t L = symB t L * (((symB t L)ᵀ * symB t L)⁻¹)ᵀ := by
    unfold symA
    rw [Matrix.transpose_mul, Matrix.transpose_transpose]
  have hGt : IsUnit (((symB t L)ᵀ * symB t L)ᵀ).det := by rw [Matrix.det_transpose]; exact hG
  have eAG : symA t L * ((symB t L)ᵀ * symB t L)ᵀ = symB t L := by
    rw [eA, Matrix.mul_assoc, Matrix.transpose_nonsing_inv, Matrix.nonsing_inv_mul _ hGt, Matrix.mul_one]
  have eBM : symB t L * ((2 * Real.pi) • (L⁻¹)ᵀ)⁻¹ = symMat t := by
    unfold symB
    rw [Matrix.mul_assoc, Matrix.mul_nonsing_inv _ hB, Matrix.mul_one]
  constructor
  · intro h0 j
    have h1 : c ᵥ* symA t L = 0 := funext h0
    have h2 : c ᵥ* symB t L = 0 := by
      rw [← eAG, ← Matrix.vecMul_vecMul, h1, Matrix.zero_vecMul]
    have h3 : c ᵥ* symMat t = 0 := by
      rw [← eBM, ← Matrix.vecMul_vecMul, h2, Matrix.zero_vecMul]
    exact congrFun h3 j
  · intro h0 k
    have h1 : c ᵥ* symMat t = 0 := funext h0
    have h2 : c ᵥ* symA t L = 0 := by
      rw [eA]
      unfold symB
      rw [← Matrix.vecMul_vecMul, ← Matrix.vecMul_vecMul, h1, Matrix.zero_vecMul, Matrix.zero_vecMul]
    exact congrFun h2 k

theorem omega_base (t : Symmetry) (L : Matrix (Fin 3) (Fin 3) ℝ) (r : Vec 3) (j : Fin 3) :
    omega (symB t L) r (baseRow t j) = 2 * Real.pi * (r ᵥ* L⁻¹) j := by
  rw [omega_symB]
  congr 1
  simp only [baseRow_mat]
  simp

theorem image_of_omega (t : Symmetry) (L : Matrix (Fin 3) (Fin 3) ℝ) (h : IsUnit L.det) (r : Vec 3)
    (hz : ∀ j, ∃ z : ℤ, omega (symB t L) r (baseRow t j) = z * (2 * Real.pi)) : Image L (fun _ => 0) r := by
  choose z hz using hz
  refine ⟨z, fun k => ?_⟩
  have : r ᵥ* L⁻¹ = fun j => (z j : ℝ) := by
    funext j
    have := hz j
    rw [omega_base] at this
    have hp : (2 * Real.pi) ≠ 0 := by positivity
    have h2 : 2 * Real.pi * (r ᵥ* L⁻¹) j = 2 * Real.pi * z j := by rw [this]; ring
    exact mul_left_cancel₀ hp h2
  rw [zero_add]
  have h3 := vecMul_inv' L h r
  rw [this] at h3
  rw [← h3]; rfl

theorem zero_at_image (t : Symmetry) (L : Matrix (Fin 3) (Fin 3) ℝ) (h : IsUnit L.det) (r : Vec 3)
    (hi : Image L (fun _ => 0) r) :
    (triDistance (symA t L) (symB t L) r).1 = 0 ∧ (nuDistance (symA t L) (symB t L) r).1 = 0 := by
  obtain ⟨m, hm⟩ := hi
  have e : r = fun k => (fun _ => 0 : Vec 3) k + translation L m k := funext hm
  have hp := c31_periodic t L h (symA t L) (fun _ => 0) m
  rw [e, hp.1, hp.2]
  have w0 : ∀ l, omega (symB t L) (fun _ => 0) l = 0 := by intro l; simp [omega]
  have n0 : nuWrap 0 = 0 := by
    have hpi := Real.pi_pos
    have : (0 + Real.pi) / (2 * Real.pi) = 1 / 2 := by field_simp; ring
    unfold nuWrap
    rw [this]
    norm_num
  constructor
  · simp [triDistance, triSq, w0]
  · simp [nuDistance, nuSq, w0, n0, scaledF, scaledG]

/-- C57 for the polynomial features, all symmetry types: the distance is zero exactly when the two particles are
periodic images of each other. -/
theorem c57_nu (t : Symmetry) (L : Matrix (Fin 3) (Fin 3) ℝ) (h : IsUnit L.det) (r : Vec 3) :
    (nuDistance (symA t L) (symB t L) r).1 = 0 ↔ Image L (fun _ => 0) r := by
  constructor
  · intro h0
    have hsq : nuSq (symA t L) (symB t L) r = 0 := by
      have := (Real.sqrt_eq_zero (c31_nonneg (symA t L) (symB t L) r).2).1 h0
      exact this
    rw [nuSq_eq] at hsq
    have hnn : ∀ i ∈ Finset.univ, 0 ≤ (∑ k, symA t L i k * symA t L i k)
        * (scaledF (nuWrap (omega (symB t L) r i)) ^ 2 - scaledG (nuWrap (omega (symB t L) r i)) ^ 2) := by
      intro i _
      exact mul_nonneg (Finset.sum_nonneg (fun k _ => mul_self_nonneg _)) (f_sub_g _ (nuWrap_bounds _)).1
    have h1 : ∑ i, (∑ k, symA t L i k * symA t L i k)
        * (scaledF (nuWrap (omega (symB t L) r i)) ^ 2 - scaledG (nuWrap (omega (symB t L) r i)) ^ 2) = 0 := by
      have a := Finset.sum_nonneg hnn
      have b : 0 ≤ ∑ k, (∑ i, scaledG (nuWrap (omega (symB t L) r i)) * symA t L i k)
        * (∑ i, scaledG (nuWrap (omega (symB t L) r i)) * symA t L i k) :=
        Finset.sum_nonneg (fun k _ => mul_self_nonneg _)
      linarith
    have h2 := (Finset.sum_eq_zero_iff_of_nonneg hnn).1 h1
    apply image_of_omega t L h
    intro j
    have h3 := h2 (baseRow t j) (Finset.mem_univ _)
    have hw : nuWrap (omega (symB t L) r (baseRow t j)) = 0 := by
      rcases mul_eq_zero.1 h3 with h4 | h4
      · exfalso
        have h5 := sum_sq_zero h4
        have h6 := (comb_zero t L h (fun i => if i = baseRow t j then 1 else 0)).1 (by
          intro k; simp [h5 k]) j
        simp [baseRow_mat] at h6
      · exact (f_sub_g _ (nuWrap_bounds _)).2 (by linarith)
    unfold nuWrap at hw
    exact ⟨_, by linarith⟩
  · intro hi
    exact (zero_at_image t L h r hi).2

/-- C57 for the trigonometric features and the symmetry types minimal, fcc and bcc. -/
theorem c57_tri_partial (t : Symmetry) (ht : t ≠ .hexagonal) (L : Matrix (Fin 3) (Fin 3) ℝ) (h : IsUnit L.det) (r : Vec 3) :
    (triDistance (symA t L) (symB t L) r).1 = 0 ↔ Image L (fun _ => 0) r := by
  constructor
  · intro h0
    have hsq : triSq (symA t L) (symB t L) r = 0 :=
      (Real.sqrt_eq_zero (c31_nonneg (symA t L) (symB t L) r).1).1 h0
    rw [triSq_eq] at hsq
    have b1 : 0 ≤ ∑ k, (∑ i, (1 - Real.cos (omega (symB t L) r i)) * symA t L i k)
        * (∑ i, (1 - Real.cos (omega (symB t L) r i)) * symA t L i k) :=
      Finset.sum_nonneg (fun k _ => mul_self_nonneg _)
    have b2 : 0 ≤ ∑ k, (∑ i, Real.sin (omega (symB t L) r i) * symA t L i k)
        * (∑ i, Real.sin (omega (symB t L) r i) * symA t L i k) :=
      Finset.sum_nonneg (fun k _ => mul_self_nonneg _)
    have h1 := sum_sq_zero (show ∑ k, (∑ i, (1 - Real.cos (omega (symB t L) r i)) * symA t L i k)
        * (∑ i, (1 - Real.cos (omega (symB t L) r i)) * symA t L i k) = 0 by linarith)
    have h2 := (comb_zero t L h _).1 h1
    have hc : ∀ i, 0 ≤ 1 - Real.cos (omega (symB t L) r i) := fun i => by linarith [Real.cos_le_one (omega (symB t L) r i)]
    apply image_of_omega t L h
    have hone : ∀ j, Real.cos (omega (symB t L) r (baseRow t j)) = 1 := by
      have key : ∀ c : Fin (symRows t).length → ℝ, (∀ i, 0 ≤ c i) → (∀ j, ∑ i, c i * symMat t i j = 0) →
          ∀ j, c (baseRow t j) = 0 := by
        intro c hc0 hcs
        cases t with
        | minimal =>
          intro j
          have e : ∀ j, ∑ i : Fin 3, c i * symMat .minimal i j = 0 := hcs
          have e0 := e 0; have e1 := e 1; have e2 := e 2
          rw [Fin.sum_univ_three] at e0 e1 e2
          simp [symMat, symRows] at e0 e1 e2
          fin_cases j
          · exact e0
          · exact e1
          · exact e2
        | fcc =>
          intro j
          have e : ∀ j, ∑ i : Fin 4, c i * symMat .fcc i j = 0 := hcs
          have e0 := e 0; have e1 := e 1; have e2 := e 2
          rw [Fin.sum_univ_four] at e0 e1 e2
          simp [symMat, symRows] at e0 e1 e2
          have p0 : 0 ≤ c (0 : Fin 4) := hc0 _
          have p1 : 0 ≤ c (1 : Fin 4) := hc0 _
          have p2 : 0 ≤ c (2 : Fin 4) := hc0 _
          have p3 : 0 ≤ c (3 : Fin 4) := hc0 _
          fin_cases j
          · show c (0 : Fin 4) = 0
            linarith
          · show c (1 : Fin 4) = 0
            linarith
          · show c (2 : Fin 4) = 0
            linarith
        | bcc =>
          intro j
          have e : ∀ j, ∑ i : Fin 6, c i * symMat .bcc i j = 0 := hcs
          have e0 := e 0; have e1 := e 1; have e2 := e 2
          rw [Fin.sum_univ_six] at e0 e1 e2
          simp [symMat, symRows] at e0 e1 e2
          have p0 : 0 ≤ c (0 : Fin 6) := hc0 _
          have p1 : 0 ≤ c (1 : Fin 6) := hc0 _
          have p2 : 0 ≤ c (2 : Fin 6) := hc0 _
          have p3 : 0 ≤ c (3 : Fin 6) := hc0 _
          have p4 : 0 ≤ c (4 : Fin 6) := hc0 _
          have p5 : 0 ≤ c (5 : Fin 6) := hc0 _
          fin_cases j
          · show c (0 : Fin 6) = 0
            linarith
          · show c (1 : Fin 6) = 0
            linarith
          · show c (2 : Fin 6) = 0
            linarith
        | hexagonal => exact absurd rfl ht
      intro j
      have := key _ hc h2 j
      linarith
    intro j
    obtain ⟨z, hz⟩ := (Real.cos_eq_one_iff _).1 (hone j)
    exact ⟨z, hz.symm⟩
  · intro hi
    exact (zero_at_image t L h r hi).1

/-- C57 fails for the trigonometric features with hexagonal symmetry: in *every* cell the distance of the point
`(a₁ + a₂)/3` (the position of the second atom of a honeycomb cell) is zero although it is no lattice point. -/
theorem c57_hexagonal (L : Matrix (Fin 3) (Fin 3) ℝ) (h : IsUnit L.det) :
    let r : Vec 3 := fun k => 1 / 3 * L 0 k + 1 / 3 * L 1 k
    (triDistance (symA .hexagonal L) (symB .hexagonal L) r).1 = 0 ∧ ¬ Image L (fun _ => 0) r := by
  intro r
  have hr : r = (![1 / 3, 1 / 3, 0] : Fin 3 → ℝ) ᵥ* L := by
    funext k
    rw [vecMul_apply', Fin.sum_univ_three]
    simp [r]
  have hf : r ᵥ* L⁻¹ = ![1 / 3, 1 / 3, 0] := by rw [hr]; exact vecMul_inv L h _
  have w : ∀ l : Fin 4, omega (symB .hexagonal L) r l
      = 2 * Real.pi * (symMat .hexagonal l 0 * (1 / 3) + symMat .hexagonal l 1 * (1 / 3)) := by
    intro l
    refine (omega_symB .hexagonal L r l).trans ?_
    rw [hf, Fin.sum_univ_three]
    simp
  have w0 : omega (symB .hexagonal L) r (0 : Fin 4) = 2 * Real.pi / 3 := by rw [w]; simp [symMat, symRows]; ring
  have w1 : omega (symB .hexagonal L) r (1 : Fin 4) = 2 * Real.pi / 3 := by rw [w]; simp [symMat, symRows]; ring
  have w2 : omega (symB .hexagonal L) r (2 : Fin 4) = 0 := by rw [w]; simp [symMat, symRows]
  have w3 : omega (symB .hexagonal L) r (3 : Fin 4) = -(2 * (2 * Real.pi / 3)) := by
    rw [w]; simp [symMat, symRows]; ring
  have c1 : Real.cos (2 * Real.pi / 3) = -(1 / 2) := by
    have : 2 * Real.pi / 3 = Real.pi - Real.pi / 3 := by ring
    rw [this, Real.cos_pi_sub, Real.cos_pi_div_three]
  have c2 : Real.cos (2 * (2 * Real.pi / 3)) = -(1 / 2) := by
    rw [Real.cos_two_mul, c1]; norm_num
  have s2 : Real.sin (-(2 * (2 * Real.pi / 3))) = Real.sin (2 * Real.pi / 3) := by
    rw [Real.sin_neg, Real.sin_two_mul, c1]; ring
  constructor
  · have hcos := (comb_zero .hexagonal L h (fun i => 1 - Real.cos (omega (symB .hexagonal L) r i))).2 (by
      intro j
      change ∑ i : Fin 4, (1 - Real.cos (omega (symB .hexagonal L) r i)) * symMat .hexagonal i j = 0
      rw [Fin.sum_univ_four, w0, w1, w2, w3, Real.cos_neg, c1, c2, Real.cos_zero]
      fin_cases j <;> simp [symMat, symRows])
    have hsin := (comb_zero .hexagonal L h (fun i => Real.sin (omega (symB .hexagonal L) r i))).2 (by
      intro j
      change ∑ i : Fin 4, Real.sin (omega (symB .hexagonal L) r i) * symMat .hexagonal i j = 0
      rw [Fin.sum_univ_four, w0, w1, w2, w3, s2, Real.sin_zero]
      fin_cases j <;> simp [symMat, symRows])
    unfold triDistance
    dsimp only
    rw [triSq_eq]
    simp only [hcos, hsin]
    simp
  · rintro ⟨m, hm⟩
    have : r = (fun i => (m i : ℝ)) ᵥ* L := by
      funext k; rw [hm k]; simp [translation, vecMul_apply']
    have h2 : r ᵥ* L⁻¹ = fun i => (m i : ℝ) := by rw [this]; exact vecMul_inv L h _
    rw [hf] at h2
    have h3 := congrFun h2 0
    simp at h3
    have h4 : (3 * m 0 : ℝ) = 1 := by rw [← h3]; norm_num
    have h5 : 3 * m 0 = 1 := by exact_mod_cast h4
    omega

end Jaqmc.Geometry.Props
