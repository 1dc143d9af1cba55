import Verif.Lemmas.AreaRotation
import Verif.Lemmas.Average
import Mathlib.MeasureTheory.Integral.IntervalIntegral.Periodic
/-!
Averages over all rotations, and that the moves on the sphere are as likely one way as the other (C136).
-/
namespace Jaqmc.Geometry.Area
open MeasureTheory Jaqmc.Geometry Matrix Jaqmc.Average
open scoped ENNReal

abbrev M3 := Matrix (Fin 3) (Fin 3) ℝ

/-- A shift of a periodic function. -/
theorem circle (h : ℝ → ℝ≥0∞) (hp : ∀ u, h (u + 1) = h u) (b : ℝ) : ∫⁻ u, h (u + b) ∂unif = ∫⁻ u, h u ∂unif := by
  have e : ∀ f : ℝ → ℝ≥0∞, ∫⁻ u, f u ∂unif = ∫⁻ u in Set.Ioc (0 : ℝ) 1, f u := by
    intro f
    unfold unif
    rw [setLIntegral_congr Ico_ae_eq_Ioc]
  rw [e, e]
  have h1 : ∫⁻ u in Set.Ioc (0 : ℝ) 1, h (u + b) = ∫⁻ u in Set.Ioc b (b + 1), h u := by
    have := (measurePreserving_add_right (volume : Measure ℝ) b).setLIntegral_comp_preimage_emb (measurableEmbedding_addRight b) h (Set.Ioc b (b + 1))
    rw [← this]
    congr 2
    ext u
    simp only [Set.mem_Ioc, Set.mem_preimage]
    constructor <;> rintro ⟨h1, h2⟩ <;> constructor <;> linarith
  rw [h1]
  have hd1 := isAddFundamentalDomain_Ioc (T := (1 : ℝ)) one_pos b
  have hd2 := isAddFundamentalDomain_Ioc (T := (1 : ℝ)) one_pos 0
  rw [zero_add] at hd2
  refine hd1.setLIntegral_eq hd2 h ?_
  rintro ⟨g, hg⟩ x
  obtain ⟨k, rfl⟩ := AddSubgroup.mem_zmultiples_iff.mp hg
  have hper : Function.Periodic h 1 := hp
  show h (k • (1 : ℝ) + x) = h x
  rw [add_comm]
  exact hper.zsmul k x

noncomputable def e3 : Fin 3 → ℝ := ![0, 0, 1]

noncomputable def frame (q : ℝ × ℝ) : M3 := rotZ q.2 * rotY q.1

noncomputable def spin (u : ℝ) : M3 := rotZ (u * 2 * Real.pi)

theorem rotZ_mul (a b : ℝ) : rotZ a * rotZ b = rotZ (a + b) := by
  ext i j
  fin_cases i <;> fin_cases j <;> simp [rotZ, Matrix.mul_apply, Fin.sum_univ_three, Real.cos_add, Real.sin_add] <;> ring

theorem spin_period (u : ℝ) : spin (u + 1) = spin u := by
  unfold spin rotZ
  have : (u + 1) * 2 * Real.pi = u * 2 * Real.pi + 2 * Real.pi := by ring
  rw [this, Real.cos_add_two_pi, Real.sin_add_two_pi]

theorem frame_e3 (q : ℝ × ℝ) : frame q *ᵥ e3 = dir q := by
  funext i
  fin_cases i <;> simp [frame, e3, dir, cartesian, rotZ, rotY, Matrix.mul_apply, mulVec, dotProduct, Fin.sum_univ_three, mul_comm]

theorem spin_e3 (u : ℝ) : spin u *ᵥ e3 = e3 := by
  funext i
  fin_cases i <;> simp [spin, e3, rotZ, mulVec, dotProduct, Fin.sum_univ_three]

theorem frame_isRot (q : ℝ × ℝ) : IsRot (frame q) := (rotZ_isRot _).mul (rotY_isRot _)

theorem spin_isRot (u : ℝ) : IsRot (spin u) := rotZ_isRot _

/-- A rotation that keeps the pole is a rotation about it. -/
theorem fixes_pole {B : M3} (hB : IsRot B) (h : B *ᵥ e3 = e3) : ∃ b, B = rotZ b := by
  have h02 : B 0 2 = 0 := by have := congrFun h 0; simpa [e3, mulVec, dotProduct, Fin.sum_univ_three] using this
  have h12 : B 1 2 = 0 := by have := congrFun h 1; simpa [e3, mulVec, dotProduct, Fin.sum_univ_three] using this
  have h22 : B 2 2 = 1 := by have := congrFun h 2; simpa [e3, mulVec, dotProduct, Fin.sum_univ_three] using this
  have o := hB.orth'
  have o22 : B 2 0 * B 2 0 + B 2 1 * B 2 1 + B 2 2 * B 2 2 = 1 := by
    have := congrFun (congrFun o 2) 2; simpa [Matrix.mul_apply, Fin.sum_univ_three] using this
  have h20 : B 2 0 = 0 := by rw [h22] at o22; nlinarith [mul_self_nonneg (B 2 0), mul_self_nonneg (B 2 1)]
  have h21 : B 2 1 = 0 := by rw [h22] at o22; nlinarith [mul_self_nonneg (B 2 0), mul_self_nonneg (B 2 1)]
  have o00 : B 0 0 * B 0 0 + B 0 1 * B 0 1 = 1 := by
    have := congrFun (congrFun o 0) 0; simpa [Matrix.mul_apply, Fin.sum_univ_three, h02] using this
  have o11 : B 1 0 * B 1 0 + B 1 1 * B 1 1 = 1 := by
    have := congrFun (congrFun o 1) 1; simpa [Matrix.mul_apply, Fin.sum_univ_three, h12] using this
  have o01 : B 0 0 * B 1 0 + B 0 1 * B 1 1 = 0 := by
    have := congrFun (congrFun o 0) 1; simpa [Matrix.mul_apply, Fin.sum_univ_three, h02] using this
  have hd : B 0 0 * B 1 1 - B 0 1 * B 1 0 = 1 := by
    have := hB.det
    rw [det_fin_three, h02, h12, h22, h20, h21] at this
    linarith
  have e1 : B 1 1 = B 0 0 := by linear_combination B 0 0 * hd - B 1 1 * o00 + B 0 1 * o01
  have e2 : B 0 1 = -B 1 0 := by linear_combination B 0 0 * o01 - B 1 0 * o00 - B 0 1 * hd + 2 * B 0 1 * hd - 2 * B 0 1 * hd + 0
  obtain ⟨b, hb1, hb2⟩ : ∃ b, B 0 0 = Real.cos b ∧ B 1 0 = Real.sin b := by
    refine ⟨Complex.arg ⟨B 0 0, B 1 0⟩, ?_⟩
    have hn : ‖(⟨B 0 0, B 1 0⟩ : ℂ)‖ = 1 := by
      rw [Complex.norm_def, Complex.normSq_mk]
      have : B 0 0 * B 0 0 + B 1 0 * B 1 0 = 1 := by rw [← o11, e1]; ring
      rw [this, Real.sqrt_one]
    have hne : (⟨B 0 0, B 1 0⟩ : ℂ) ≠ 0 := by intro h; rw [h, norm_zero] at hn; exact zero_ne_one hn
    rw [Complex.cos_arg hne, Complex.sin_arg, hn, div_one, div_one]
    exact ⟨rfl, rfl⟩
  refine ⟨b, ?_⟩
  ext i j
  fin_cases i <;> fin_cases j <;> simp [rotZ, ← hb1, ← hb2, h02, h12, h22, h20, h21, e1, e2]

/-- The frame of a direction off the poles, from its Cartesian components. -/
noncomputable def frameOf (X : Fin 3 → ℝ) : M3 :=
  let s := Real.sqrt (X 0 ^ 2 + X 1 ^ 2)
  !![X 2 * X 0 / s, -X 1 / s, X 0; X 2 * X 1 / s, X 0 / s, X 1; -s, 0, X 2]

theorem frameOf_dir (q : ℝ × ℝ) (h : 0 < Real.sin q.1) : frameOf (dir q) = frame q := by
  have hs : Real.sqrt (dir q 0 ^ 2 + dir q 1 ^ 2) = Real.sin q.1 := by
    have : dir q 0 ^ 2 + dir q 1 ^ 2 = Real.sin q.1 ^ 2 := by
      have h2 := Real.sin_sq_add_cos_sq q.2
      simp [dir, cartesian]
      linear_combination Real.sin q.1 ^ 2 * h2
    rw [this, Real.sqrt_sq h.le]
  unfold frameOf
  rw [hs]
  ext i j
  fin_cases i <;> fin_cases j <;> simp [frame, dir, cartesian, rotZ, rotY, Matrix.mul_apply, Fin.sum_univ_three] <;> field_simp

theorem frameOf_rot (X : Fin 3 → ℝ) (hX : X ⬝ᵥ X = 1) (hs : X 0 ^ 2 + X 1 ^ 2 ≠ 0) : IsRot (frameOf X) ∧ frameOf X *ᵥ e3 = X := by
  have hX' : X 0 ^ 2 + X 1 ^ 2 + X 2 ^ 2 = 1 := by
    have : X 0 * X 0 + X 1 * X 1 + X 2 * X 2 = 1 := by simpa [dotProduct, Fin.sum_univ_three] using hX
    linarith
  have hp : 0 < X 0 ^ 2 + X 1 ^ 2 := lt_of_le_of_ne (by positivity) (Ne.symm hs)
  have hq : Real.sqrt (X 0 ^ 2 + X 1 ^ 2) ^ 2 = X 0 ^ 2 + X 1 ^ 2 := Real.sq_sqrt hp.le
  have hsp : 0 < Real.sqrt (X 0 ^ 2 + X 1 ^ 2) := Real.sqrt_pos.mpr hp
  unfold frameOf
  dsimp only
  generalize Real.sqrt (X 0 ^ 2 + X 1 ^ 2) = s at *
  have hs0 : s ≠ 0 := hsp.ne'
  refine ⟨⟨?_, ?_⟩, ?_⟩
  · ext i j
    fin_cases i <;> fin_cases j <;> simp [Matrix.mul_apply, Fin.sum_univ_three] <;> field_simp <;> grind
  · rw [det_fin_three]
    simp
    field_simp
    grind
  · funext i
    fin_cases i <;> simp [e3, mulVec, dotProduct, Fin.sum_univ_three]

end Jaqmc.Geometry.Area
