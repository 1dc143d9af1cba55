import Verif.Props.Sphere
import Mathlib.Analysis.SpecialFunctions.PolarCoord
import Mathlib.MeasureTheory.Measure.Lebesgue.EqHaar
import Mathlib.MeasureTheory.Constructions.Pi
/-!
The area of the sphere in polar angles, and that rotations preserve it (C136).
-/
namespace Jaqmc.Geometry.Area
open MeasureTheory Jaqmc.Geometry Matrix
open scoped ENNReal

/-- The area element `sin θ dθ dφ` on the polar angles. -/
noncomputable def area : Measure (ℝ × ℝ) :=
  (volume.restrict (Set.Ioo 0 Real.pi ×ˢ Set.Ioo (-Real.pi) Real.pi)).withDensity fun q => ENNReal.ofReal (Real.sin q.1)

noncomputable def dir (q : ℝ × ℝ) : Fin 3 → ℝ := cartesian q.1 q.2

theorem dir_measurable : Measurable dir := by
  unfold dir cartesian
  refine measurable_pi_iff.mpr fun i => ?_
  fin_cases i <;> simp <;> fun_prop

/-- The coordinates `z, (x, y)`. -/
noncomputable def zxy (x : Fin 3 → ℝ) : ℝ × ℝ × ℝ := (x 2, x 0, x 1)

noncomputable def ofZxy (p : ℝ × ℝ × ℝ) : Fin 3 → ℝ := ![p.2.1, p.2.2, p.1]

theorem ofZxy_measurable : Measurable ofZxy := by
  unfold ofZxy
  refine measurable_pi_iff.mpr fun i => ?_
  fin_cases i <;> simp <;> fun_prop

theorem zxy_preserving : MeasurePreserving zxy (volume : Measure (Fin 3 → ℝ)) volume := by
  have h1 := volume_preserving_piFinSuccAbove (fun _ : Fin 3 => ℝ) 2
  have h2 := (MeasurePreserving.id (volume : Measure ℝ)).prod (volume_preserving_piFinTwo fun _ : Fin 2 => ℝ)
  have h := h2.comp h1
  exact h

theorem ofZxy_zxy (x : Fin 3 → ℝ) : ofZxy (zxy x) = x := by
  funext i; fin_cases i <;> rfl

theorem volume_zxy (G : (Fin 3 → ℝ) → ℝ≥0∞) (hG : Measurable G) : ∫⁻ x, G x = ∫⁻ p, G (ofZxy p) := by
  have h : Measurable fun p => G (ofZxy p) := hG.comp ofZxy_measurable
  rw [← zxy_preserving.lintegral_comp h]
  simp only [ofZxy_zxy]

theorem polar_target : (polarCoord.target : Set (ℝ × ℝ)) = Set.Ioi 0 ×ˢ Set.Ioo (-Real.pi) Real.pi := rfl

theorem polar_lintegral (f : ℝ × ℝ → ℝ≥0∞) (hf : Measurable f) :
    ∫⁻ p, f p = ∫⁻ r in Set.Ioi (0 : ℝ), ∫⁻ φ in Set.Ioo (-Real.pi) Real.pi, ENNReal.ofReal r * f (r * Real.cos φ, r * Real.sin φ) := by
  rw [← lintegral_comp_polarCoord_symm, polar_target, Measure.volume_eq_prod, ← Measure.prod_restrict, lintegral_prod]
  · rfl
  · have : Measurable fun p : ℝ × ℝ => ENNReal.ofReal p.1 • f (p.1 * Real.cos p.2, p.1 * Real.sin p.2) := by
      simp only [smul_eq_mul]
      exact (by fun_prop : Measurable fun p : ℝ × ℝ => ENNReal.ofReal p.1).mul (hf.comp (by fun_prop))
    exact this.aemeasurable

/-- Integration in spherical coordinates. -/
theorem sphere_formula (G : (Fin 3 → ℝ) → ℝ≥0∞) (hG : Measurable G) :
    ∫⁻ x, G x = ∫⁻ r in Set.Ioi (0 : ℝ), ENNReal.ofReal (r ^ 2) * ∫⁻ q, G (r • dir q) ∂area := by
  have hg : Measurable fun p : ℝ × ℝ × ℝ => G (ofZxy p) := hG.comp ofZxy_measurable
  -- cylinder coordinates
  have e1 : ∀ z : ℝ, ∫⁻ w : ℝ × ℝ, G (ofZxy (z, w)) =
      ∫⁻ φ in Set.Ioo (-Real.pi) Real.pi, ∫⁻ ρ in Set.Ioi (0 : ℝ), ENNReal.ofReal ρ * G (ofZxy (z, ρ * Real.cos φ, ρ * Real.sin φ)) := by
    intro z
    have hz : Measurable fun w : ℝ × ℝ => G (ofZxy (z, w)) := hg.comp (measurable_const.prodMk measurable_id)
    rw [polar_lintegral _ hz]
    rw [lintegral_lintegral_swap]
    have : Measurable fun p : ℝ × ℝ => ENNReal.ofReal p.1 * G (ofZxy (z, p.1 * Real.cos p.2, p.1 * Real.sin p.2)) :=
      (by fun_prop : Measurable fun p : ℝ × ℝ => ENNReal.ofReal p.1).mul (hg.comp (by fun_prop))
    exact this.aemeasurable
  have hK : Measurable fun p : ℝ × ℝ × ℝ => ENNReal.ofReal p.2.2 * G (ofZxy (p.1, p.2.2 * Real.cos p.2.1, p.2.2 * Real.sin p.2.1)) :=
    (by fun_prop : Measurable fun p : ℝ × ℝ × ℝ => ENNReal.ofReal p.2.2).mul (hg.comp (by fun_prop))
  rw [volume_zxy G hG, Measure.volume_eq_prod, lintegral_prod _ hg.aemeasurable]
  simp_rw [e1]
  rw [lintegral_lintegral_swap]
  swap
  · have : Measurable fun p : ℝ × ℝ => ∫⁻ ρ in Set.Ioi (0 : ℝ), ENNReal.ofReal ρ * G (ofZxy (p.1, ρ * Real.cos p.2, ρ * Real.sin p.2)) := by
      have h : Measurable fun p : (ℝ × ℝ) × ℝ => ENNReal.ofReal p.2 * G (ofZxy (p.1.1, p.2 * Real.cos p.1.2, p.2 * Real.sin p.1.2)) :=
        hK.comp (by fun_prop : Measurable fun p : (ℝ × ℝ) × ℝ => (p.1.1, p.1.2, p.2))
      exact h.lintegral_prod_right'
    exact this.aemeasurable
  -- polar coordinates in the half plane
  have e2 : ∀ φ : ℝ, ∫⁻ z : ℝ, ∫⁻ ρ in Set.Ioi (0 : ℝ), ENNReal.ofReal ρ * G (ofZxy (z, ρ * Real.cos φ, ρ * Real.sin φ)) =
      ∫⁻ r in Set.Ioi (0 : ℝ), ∫⁻ θ in Set.Ioo 0 Real.pi, ENNReal.ofReal (r ^ 2) * (ENNReal.ofReal (Real.sin θ) * G (r • dir (θ, φ))) := by
    intro φ
    have hM : Measurable fun p : ℝ × ℝ => (Set.Ioi (0 : ℝ)).indicator (fun ρ => ENNReal.ofReal ρ * G (ofZxy (p.1, ρ * Real.cos φ, ρ * Real.sin φ))) p.2 := by
      have h : Measurable fun p : ℝ × ℝ => ENNReal.ofReal p.2 * G (ofZxy (p.1, p.2 * Real.cos φ, p.2 * Real.sin φ)) :=
        hK.comp (by fun_prop : Measurable fun p : ℝ × ℝ => (p.1, φ, p.2))
      have h2 := h.indicator (measurable_snd measurableSet_Ioi : MeasurableSet ((Prod.snd : ℝ × ℝ → ℝ) ⁻¹' Set.Ioi 0))
      exact h2
    have : ∫⁻ z : ℝ, ∫⁻ ρ in Set.Ioi (0 : ℝ), ENNReal.ofReal ρ * G (ofZxy (z, ρ * Real.cos φ, ρ * Real.sin φ)) =
        ∫⁻ p : ℝ × ℝ, (Set.Ioi (0 : ℝ)).indicator (fun ρ => ENNReal.ofReal ρ * G (ofZxy (p.1, ρ * Real.cos φ, ρ * Real.sin φ))) p.2 := by
      rw [Measure.volume_eq_prod, lintegral_prod _ hM.aemeasurable]
      refine lintegral_congr fun z => ?_
      dsimp only
      rw [← lintegral_indicator measurableSet_Ioi]
    rw [this, polar_lintegral _ hM]
    refine setLIntegral_congr_fun measurableSet_Ioi fun r hr => ?_
    have hr : 0 < r := hr
    have hsub : Set.Ioo (0 : ℝ) Real.pi ⊆ Set.Ioo (-Real.pi) Real.pi := fun t ht => ⟨by have := Real.pi_pos; have := ht.1; linarith, ht.2⟩
    have hin : ∀ θ ∈ Set.Ioo (-Real.pi) Real.pi, ENNReal.ofReal r * (Set.Ioi (0 : ℝ)).indicator
        (fun ρ => ENNReal.ofReal ρ * G (ofZxy (r * Real.cos θ, ρ * Real.cos φ, ρ * Real.sin φ))) (r * Real.sin θ) =
        (Set.Ioo 0 Real.pi).indicator (fun θ => ENNReal.ofReal (r ^ 2) * (ENNReal.ofReal (Real.sin θ) * G (r • dir (θ, φ)))) θ := by
      intro θ hθ
      by_cases h : 0 < θ
      · have hs : 0 < Real.sin θ := Real.sin_pos_of_pos_of_lt_pi h hθ.2
        rw [Set.indicator_of_mem (show r * Real.sin θ ∈ Set.Ioi (0 : ℝ) from mul_pos hr hs), Set.indicator_of_mem (show θ ∈ Set.Ioo 0 Real.pi from ⟨h, hθ.2⟩)]
        have ev : ofZxy (r * Real.cos θ, r * Real.sin θ * Real.cos φ, r * Real.sin θ * Real.sin φ) = r • dir (θ, φ) := by
          funext i; fin_cases i <;> simp [ofZxy, dir, cartesian, mul_assoc]
        rw [ev, ← mul_assoc, ← mul_assoc, ← ENNReal.ofReal_mul hr.le, ← ENNReal.ofReal_mul (by positivity)]
        congr 2
        ring
      · have hs : Real.sin θ ≤ 0 := Real.sin_nonpos_of_nonpos_of_neg_pi_le (not_lt.mp h) hθ.1.le
        rw [Set.indicator_of_notMem (by simp only [Set.mem_Ioi, not_lt]; exact mul_nonpos_of_nonneg_of_nonpos hr.le hs),
          Set.indicator_of_notMem (fun h' => h h'.1), mul_zero]
    rw [setLIntegral_congr_fun measurableSet_Ioo hin, lintegral_indicator measurableSet_Ioo, Measure.restrict_restrict measurableSet_Ioo,
      Set.inter_eq_left.mpr hsub]
  simp_rw [e2]
  have hD : Measurable fun p : (ℝ × ℝ) × ℝ => G (p.2 • dir p.1) :=
    hG.comp ((measurable_snd).smul (dir_measurable.comp measurable_fst))
  have hL : Measurable fun p : ℝ × ℝ × ℝ => ENNReal.ofReal (p.2.1 ^ 2) * (ENNReal.ofReal (Real.sin p.2.2) * G (p.2.1 • dir (p.2.2, p.1))) := by
    have h1 : Measurable fun p : ℝ × ℝ × ℝ => G (p.2.1 • dir (p.2.2, p.1)) := hD.comp (by fun_prop : Measurable fun p : ℝ × ℝ × ℝ => ((p.2.2, p.1), p.2.1))
    have h2 : Measurable fun p : ℝ × ℝ × ℝ => ENNReal.ofReal (p.2.1 ^ 2) := by fun_prop
    have h3 : Measurable fun p : ℝ × ℝ × ℝ => ENNReal.ofReal (Real.sin p.2.2) := by fun_prop
    exact h2.mul (h3.mul h1)
  rw [lintegral_lintegral_swap]
  swap
  · have : Measurable fun p : ℝ × ℝ => ∫⁻ θ in Set.Ioo 0 Real.pi, ENNReal.ofReal (p.2 ^ 2) * (ENNReal.ofReal (Real.sin θ) * G (p.2 • dir (θ, p.1))) := by
      have h : Measurable fun p : (ℝ × ℝ) × ℝ => ENNReal.ofReal (p.1.2 ^ 2) * (ENNReal.ofReal (Real.sin p.2) * G (p.1.2 • dir (p.2, p.1.1))) :=
        hL.comp (by fun_prop : Measurable fun p : (ℝ × ℝ) × ℝ => (p.1.1, p.1.2, p.2))
      exact h.lintegral_prod_right'
    exact this.aemeasurable
  refine lintegral_congr fun r => ?_
  have hr1 : Measurable fun q : ℝ × ℝ => G (r • dir q) := hD.comp (measurable_id.prodMk measurable_const)
  unfold area
  rw [lintegral_withDensity_eq_lintegral_mul _ (by fun_prop) hr1, Measure.volume_eq_prod, ← Measure.prod_restrict]
  have hS : Measurable fun q : ℝ × ℝ => ENNReal.ofReal (Real.sin q.1) * G (r • dir q) :=
    (by fun_prop : Measurable fun q : ℝ × ℝ => ENNReal.ofReal (Real.sin q.1)).mul hr1
  have : ∫⁻ q, ((fun q : ℝ × ℝ => ENNReal.ofReal (Real.sin q.1)) * fun q => G (r • dir q)) q
        ∂((volume.restrict (Set.Ioo 0 Real.pi)).prod (volume.restrict (Set.Ioo (-Real.pi) Real.pi))) =
      ∫⁻ φ in Set.Ioo (-Real.pi) Real.pi, ∫⁻ θ in Set.Ioo 0 Real.pi, ENNReal.ofReal (Real.sin θ) * G (r • dir (θ, φ)) := by
    simp only [Pi.mul_apply]
    rw [lintegral_prod_symm _ hS.aemeasurable]
  rw [this, ← lintegral_const_mul' _ _ ENNReal.ofReal_ne_top]
  refine lintegral_congr fun φ => ?_
  rw [← lintegral_const_mul' _ _ ENNReal.ofReal_ne_top]

/-! ### Rotations -/

/-- A rotation. -/
structure IsRot (A : Matrix (Fin 3) (Fin 3) ℝ) : Prop where
  orth : Aᵀ * A = 1
  det : A.det = 1

theorem IsRot.orth' {A : Matrix (Fin 3) (Fin 3) ℝ} (h : IsRot A) : A * Aᵀ = 1 := mul_eq_one_comm.mp h.orth

theorem IsRot.mul {A B : Matrix (Fin 3) (Fin 3) ℝ} (hA : IsRot A) (hB : IsRot B) : IsRot (A * B) := by
  refine ⟨?_, by rw [det_mul, hA.det, hB.det, one_mul]⟩
  rw [transpose_mul, Matrix.mul_assoc, ← Matrix.mul_assoc _ A B, hA.orth, Matrix.one_mul, hB.orth]

theorem IsRot.transpose {A : Matrix (Fin 3) (Fin 3) ℝ} (hA : IsRot A) : IsRot Aᵀ :=
  ⟨by rw [transpose_transpose]; exact hA.orth', by rw [det_transpose, hA.det]⟩

theorem rotZ_isRot (t : ℝ) : IsRot (rotZ t) := by
  have h := Real.sin_sq_add_cos_sq t
  constructor
  · ext i j
    fin_cases i <;> fin_cases j <;> simp [rotZ, Matrix.mul_apply, Fin.sum_univ_three] <;> nlinarith
  · rw [det_fin_three]
    simp [rotZ]
    nlinarith

theorem rotY_isRot (t : ℝ) : IsRot (rotY t) := by
  have h := Real.sin_sq_add_cos_sq t
  constructor
  · ext i j
    fin_cases i <;> fin_cases j <;> simp [rotY, Matrix.mul_apply, Fin.sum_univ_three] <;> nlinarith
  · rw [det_fin_three]
    simp [rotY]
    nlinarith

/-- The length of a vector. -/
noncomputable def len (x : Fin 3 → ℝ) : ℝ := Real.sqrt (x ⬝ᵥ x)

theorem len_rot {A : Matrix (Fin 3) (Fin 3) ℝ} (hA : Aᵀ * A = 1) (x : Fin 3 → ℝ) : len (A *ᵥ x) = len x := by
  unfold len
  rw [dotProduct_mulVec, vecMul_mulVec, hA, vecMul_one]

theorem dir_dot (q : ℝ × ℝ) : dir q ⬝ᵥ dir q = 1 := by
  have h1 := Real.sin_sq_add_cos_sq q.1
  have h2 := Real.sin_sq_add_cos_sq q.2
  simp only [dir, cartesian, dotProduct, Fin.sum_univ_three]
  simp
  linear_combination Real.sin q.1 ^ 2 * h2 + h1

theorem len_dir (r : ℝ) (hr : 0 < r) (q : ℝ × ℝ) : len (r • dir q) = r := by
  unfold len
  rw [smul_dotProduct, dotProduct_smul, dir_dot, smul_eq_mul, smul_eq_mul, mul_one, Real.sqrt_mul_self hr.le]

theorem len_measurable : Measurable len := by
  unfold len dotProduct
  fun_prop

/-- Rotations preserve the area. -/
theorem area_rotation {A : Matrix (Fin 3) (Fin 3) ℝ} (hA : IsRot A) (g : (Fin 3 → ℝ) → ℝ≥0∞) (hg : Measurable g) :
    ∫⁻ q, g (A *ᵥ dir q) ∂area = ∫⁻ q, g (dir q) ∂area := by
  classical
  let F : (Fin 3 → ℝ) → ℝ≥0∞ := fun x => if len x < 1 then g ((len x)⁻¹ • x) else 0
  have hF : Measurable F := Measurable.ite (measurableSet_lt len_measurable measurable_const)
    (hg.comp (len_measurable.inv.smul measurable_id)) measurable_const
  have hmul : Measurable fun x : Fin 3 → ℝ => A *ᵥ x := by
    refine measurable_pi_iff.mpr fun i => ?_
    simp only [mulVec, dotProduct]
    fun_prop
  have hvol : ∫⁻ x, F (A *ᵥ x) = ∫⁻ x, F x := by
    have h := Real.map_matrix_volume_pi_eq_smul_volume_pi (M := A) (by rw [hA.det]; exact one_ne_zero)
    rw [hA.det, inv_one, abs_one, ENNReal.ofReal_one, one_smul] at h
    conv_rhs => rw [← h]
    rw [lintegral_map hF (show Measurable ⇑(toLin' A) from hmul)]
    rfl
  let c : ℝ≥0∞ := ∫⁻ r in Set.Ioi (0 : ℝ), if r < 1 then ENNReal.ofReal (r ^ 2) else 0
  have key : ∀ B : Matrix (Fin 3) (Fin 3) ℝ, IsRot B → ∫⁻ x, F (B *ᵥ x) = c * ∫⁻ q, g (B *ᵥ dir q) ∂area := by
    intro B hB
    have hB' : Measurable fun x : Fin 3 → ℝ => B *ᵥ x := by
      refine measurable_pi_iff.mpr fun i => ?_
      simp only [mulVec, dotProduct]
      fun_prop
    have hFB : Measurable fun x => F (B *ᵥ x) := hF.comp hB'
    rw [sphere_formula _ hFB]
    have : ∀ r ∈ Set.Ioi (0 : ℝ), ENNReal.ofReal (r ^ 2) * ∫⁻ q, F (B *ᵥ (r • dir q)) ∂area =
        (if r < 1 then ENNReal.ofReal (r ^ 2) else 0) * ∫⁻ q, g (B *ᵥ dir q) ∂area := by
      intro r hr
      have hr : 0 < r := hr
      have e : ∀ q, F (B *ᵥ (r • dir q)) = if r < 1 then g (B *ᵥ dir q) else 0 := by
        intro q
        simp only [F]
        rw [len_rot hB.orth, len_dir r hr, mulVec_smul, smul_smul, inv_mul_cancel₀ hr.ne', one_smul]
      simp_rw [e]
      by_cases h : r < 1
      · simp [h]
      · simp [h]
    rw [setLIntegral_congr_fun measurableSet_Ioi this, lintegral_mul_const]
    exact Measurable.ite (measurableSet_lt measurable_id measurable_const) (by fun_prop) measurable_const
  have h1 := key A hA
  have h2 := key 1 ⟨by simp, by simp⟩
  simp only [one_mulVec] at h2
  rw [hvol, h2] at h1
  have hsplit : c = ∫⁻ r in Set.Ioo (0 : ℝ) 1, ENNReal.ofReal (r ^ 2) := by
    simp only [c]
    have : ∀ r ∈ Set.Ioi (0 : ℝ), (if r < 1 then ENNReal.ofReal (r ^ 2) else 0) = (Set.Iio (1 : ℝ)).indicator (fun r => ENNReal.ofReal (r ^ 2)) r := by
      intro r _; simp [Set.indicator]
    rw [setLIntegral_congr_fun measurableSet_Ioi this, lintegral_indicator measurableSet_Iio, Measure.restrict_restrict measurableSet_Iio,
      Set.Iio_inter_Ioi]
  have c0 : c ≠ 0 := by
    rw [hsplit]
    intro h
    rw [setLIntegral_eq_zero_iff measurableSet_Ioo (by fun_prop)] at h
    have hn : volume (Set.Ioo (0 : ℝ) 1) = 0 := by
      rw [← nonpos_iff_eq_zero, ← (h : volume _ = 0)]
      refine measure_mono fun r hr => ?_
      intro h'
      have := h' hr
      rw [ENNReal.ofReal_eq_zero] at this
      have : 0 < r ^ 2 := pow_pos hr.1 2
      linarith
    simp at hn
  have c1 : c ≠ ∞ := by
    rw [hsplit]
    refine ne_of_lt (lt_of_le_of_lt (setLIntegral_mono measurable_const (g := fun _ => 1) fun r hr => ?_) ?_)
    · rw [← ENNReal.ofReal_one]
      exact ENNReal.ofReal_le_ofReal (pow_le_one₀ hr.1.le hr.2.le)
    · simp
  exact ((ENNReal.mul_right_inj c0 c1).mp h1).symm

end Jaqmc.Geometry.Area
