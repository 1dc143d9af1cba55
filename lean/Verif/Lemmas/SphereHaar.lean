import Verif.Lemmas.SphereMove
import Mathlib.MeasureTheory.Measure.Prod
/-!
The average over all rotations does not change when they are all followed, or all preceded, by one more (C136).
-/
namespace Jaqmc.Geometry.Area
open MeasureTheory Jaqmc.Geometry Matrix Jaqmc.Average
open scoped ENNReal

instance : MeasurableSpace M3 := MeasurableSpace.pi

theorem meas_mat {α : Type*} [MeasurableSpace α] {f : α → M3} (h : ∀ i j, Measurable fun a => f a i j) : Measurable f :=
  measurable_pi_iff.mpr fun i => measurable_pi_iff.mpr fun j => h i j

theorem meas_entry (i j : Fin 3) : Measurable fun M : M3 => M i j :=
  (measurable_pi_apply j).comp (measurable_pi_apply i)

theorem meas_mul {α : Type*} [MeasurableSpace α] {f g : α → M3} (hf : Measurable f) (hg : Measurable g) : Measurable fun a => f a * g a := by
  refine meas_mat fun i j => ?_
  simp only [Matrix.mul_apply]
  exact Finset.measurable_sum _ fun k _ => ((meas_entry i k).comp hf).mul ((meas_entry k j).comp hg)

theorem meas_transpose : Measurable fun M : M3 => Mᵀ := meas_mat fun i j => meas_entry j i

theorem meas_mulVec {α : Type*} [MeasurableSpace α] {f : α → M3} (hf : Measurable f) (v : Fin 3 → ℝ) : Measurable fun a => f a *ᵥ v := by
  refine measurable_pi_iff.mpr fun i => ?_
  simp only [mulVec, dotProduct]
  exact Finset.measurable_sum _ fun k _ => ((meas_entry i k).comp hf).mul_const _

theorem mulVec_meas (A : M3) : Measurable fun v : Fin 3 → ℝ => A *ᵥ v := by
  refine measurable_pi_iff.mpr fun i => ?_
  simp only [mulVec, dotProduct]
  exact Finset.measurable_sum _ fun k _ => (measurable_pi_apply k).const_mul _

theorem rotZ_measurable : Measurable rotZ := by
  refine meas_mat fun i j => ?_
  unfold rotZ
  fin_cases i <;> fin_cases j <;> simp <;> fun_prop

theorem rotY_measurable : Measurable rotY := by
  refine meas_mat fun i j => ?_
  unfold rotY
  fin_cases i <;> fin_cases j <;> simp <;> fun_prop

theorem spin_measurable : Measurable spin := rotZ_measurable.comp (by fun_prop : Measurable fun u : ℝ => u * 2 * Real.pi)

theorem frame_measurable : Measurable frame := meas_mul (rotZ_measurable.comp measurable_snd) (rotY_measurable.comp measurable_fst)

theorem frameOf_measurable : Measurable frameOf := by
  refine meas_mat fun i j => ?_
  unfold frameOf
  fin_cases i <;> fin_cases j <;> simp <;> fun_prop

/-- A rotation, from where it sends the pole and by how much it turns about it. -/
noncomputable def rot (w : (ℝ × ℝ) × ℝ) : M3 := frame w.1 * spin w.2

theorem rot_measurable : Measurable rot := meas_mul (frame_measurable.comp measurable_fst) (spin_measurable.comp measurable_snd)

theorem rot_isRot (w : (ℝ × ℝ) × ℝ) : IsRot (rot w) := (frame_isRot _).mul (spin_isRot _)

instance : IsProbabilityMeasure unif := by
  constructor
  simp [unif]

theorem area_finite : IsFiniteMeasure area := by
  constructor
  unfold area
  rw [withDensity_apply _ MeasurableSet.univ, Measure.restrict_univ]
  calc ∫⁻ q, ENNReal.ofReal (Real.sin q.1) ∂(volume.restrict (Set.Ioo 0 Real.pi ×ˢ Set.Ioo (-Real.pi) Real.pi))
      ≤ ∫⁻ _, 1 ∂(volume.restrict (Set.Ioo 0 Real.pi ×ˢ Set.Ioo (-Real.pi) Real.pi)) :=
        lintegral_mono fun q => by
          rw [← ENNReal.ofReal_one]
          exact ENNReal.ofReal_le_ofReal (Real.sin_le_one _)
    _ < ∞ := by
        rw [lintegral_one, Measure.restrict_apply_univ, Measure.volume_eq_prod, Measure.prod_prod]
        simp only [Real.volume_Ioo]
        exact ENNReal.mul_lt_top ENNReal.ofReal_lt_top ENNReal.ofReal_lt_top

instance : IsFiniteMeasure area := area_finite

theorem area_inside : ∀ᵐ q ∂area, q ∈ Set.Ioo 0 Real.pi ×ˢ Set.Ioo (-Real.pi) Real.pi := by
  have h : ∀ᵐ q ∂(volume.restrict (Set.Ioo 0 Real.pi ×ˢ Set.Ioo (-Real.pi) Real.pi)), q ∈ Set.Ioo 0 Real.pi ×ˢ Set.Ioo (-Real.pi) Real.pi :=
    ae_restrict_mem (measurableSet_Ioo.prod measurableSet_Ioo)
  exact (withDensity_absolutelyContinuous _ _).ae_le h

theorem area_sin : ∀ᵐ q ∂area, 0 < Real.sin q.1 := by
  filter_upwards [area_inside] with q hq
  exact Real.sin_pos_of_pos_of_lt_pi hq.1.1 hq.1.2

theorem dir_sq (q : ℝ × ℝ) : dir q 0 ^ 2 + dir q 1 ^ 2 = Real.sin q.1 ^ 2 := by
  have h2 := Real.sin_sq_add_cos_sq q.2
  simp [dir, cartesian]
  linear_combination Real.sin q.1 ^ 2 * h2

theorem ae_rot {A : M3} (hA : IsRot A) {s : Set (Fin 3 → ℝ)} (hs : MeasurableSet s) (h : ∀ᵐ q ∂area, dir q ∉ s) : ∀ᵐ q ∂area, A *ᵥ dir q ∉ s := by
  have e := area_rotation hA (s.indicator 1) (measurable_one.indicator hs)
  have z : ∫⁻ q, s.indicator 1 (dir q) ∂area = 0 := by
    rw [lintegral_congr_ae (g := fun _ => 0), lintegral_zero]
    filter_upwards [h] with q hq
    rw [Set.indicator_of_notMem hq]
  have me : Measurable fun q => s.indicator (1 : (Fin 3 → ℝ) → ℝ≥0∞) (A *ᵥ dir q) :=
    (measurable_one.indicator hs).comp ((mulVec_meas A).comp dir_measurable)
  rw [z, lintegral_eq_zero_iff me] at e
  filter_upwards [e] with q hq hm
  have : s.indicator (1 : (Fin 3 → ℝ) → ℝ≥0∞) (A *ᵥ dir q) = 0 := hq
  rw [Set.indicator_of_mem hm] at this
  exact one_ne_zero this

/-- One more rotation after all of them. -/
theorem rot_left {A : M3} (hA : IsRot A) (g : M3 → ℝ≥0∞) (hg : Measurable g) :
    ∫⁻ w, g (A * rot w) ∂(area.prod unif) = ∫⁻ w, g (rot w) ∂(area.prod unif) := by
  have m1 : Measurable fun w => g (A * rot w) := hg.comp (meas_mul measurable_const rot_measurable)
  have m2 : Measurable fun w => g (rot w) := hg.comp rot_measurable
  rw [lintegral_prod _ m1.aemeasurable, lintegral_prod _ m2.aemeasurable]
  let G : (Fin 3 → ℝ) → ℝ≥0∞ := fun X => ∫⁻ u, g (frameOf X * spin u) ∂unif
  have mG : Measurable G := by
    have : Measurable fun p : (Fin 3 → ℝ) × ℝ => g (frameOf p.1 * spin p.2) :=
      hg.comp (meas_mul (frameOf_measurable.comp measurable_fst) (spin_measurable.comp measurable_snd))
    exact this.lintegral_prod_right'
  have hs : MeasurableSet {X : Fin 3 → ℝ | X 0 ^ 2 + X 1 ^ 2 = 0} := measurableSet_eq_fun (by fun_prop) (by fun_prop)
  have hn : ∀ᵐ q ∂area, dir q ∉ {X : Fin 3 → ℝ | X 0 ^ 2 + X 1 ^ 2 = 0} := by
    filter_upwards [area_sin] with q hq h
    have : dir q 0 ^ 2 + dir q 1 ^ 2 = 0 := h
    rw [dir_sq] at this
    exact hq.ne' (pow_eq_zero_iff two_ne_zero |>.mp this)
  have e1 : ∫⁻ q, ∫⁻ u, g (A * rot (q, u)) ∂unif ∂area = ∫⁻ q, G (A *ᵥ dir q) ∂area := by
    refine lintegral_congr_ae ?_
    filter_upwards [ae_rot hA hs hn] with q hq
    have hq' : (A *ᵥ dir q) 0 ^ 2 + (A *ᵥ dir q) 1 ^ 2 ≠ 0 := hq
    have hl : (A *ᵥ dir q) ⬝ᵥ (A *ᵥ dir q) = 1 := by
      rw [dotProduct_mulVec, ← mulVec_transpose, mulVec_mulVec, hA.orth, one_mulVec, dir_dot]
    obtain ⟨hF, hFe⟩ := frameOf_rot _ hl hq'
    obtain ⟨b, hb⟩ := fixes_pole (hF.transpose.mul (hA.mul (frame_isRot q))) (by
      rw [← mulVec_mulVec, ← mulVec_mulVec, frame_e3]
      have : (frameOf (A *ᵥ dir q))ᵀ *ᵥ (frameOf (A *ᵥ dir q) *ᵥ e3) = e3 := by rw [mulVec_mulVec, hF.orth, one_mulVec]
      rwa [hFe] at this)
    have hAf : A * frame q = frameOf (A *ᵥ dir q) * rotZ b := by
      rw [← hb, ← mul_assoc, hF.orth', one_mul]
    have hb2 : ∀ u, A * rot (q, u) = frameOf (A *ᵥ dir q) * spin (u + b / (2 * Real.pi)) := by
      intro u
      unfold rot
      rw [← mul_assoc, hAf, mul_assoc]
      congr 1
      unfold spin
      rw [rotZ_mul]
      congr 1
      have := Real.pi_ne_zero
      field_simp
      ring
    simp_rw [hb2]
    exact circle (fun u => g (frameOf (A *ᵥ dir q) * spin u)) (fun u => by rw [spin_period]) _
  have e2 : ∫⁻ q, ∫⁻ u, g (rot (q, u)) ∂unif ∂area = ∫⁻ q, G (dir q) ∂area := by
    refine lintegral_congr_ae ?_
    filter_upwards [area_sin] with q hq
    show _ = ∫⁻ u, g (frameOf (dir q) * spin u) ∂unif
    rw [frameOf_dir q hq]
    rfl
  rw [e1, e2, area_rotation hA G mG]

/-- One more rotation before all of them. -/
theorem rot_right {S : M3} (hS : IsRot S) (g : M3 → ℝ≥0∞) (hg : Measurable g) :
    ∫⁻ w, g (rot w * S) ∂(area.prod unif) = ∫⁻ w, g (rot w) ∂(area.prod unif) := by
  have key : ∀ S : M3, IsRot S → (area.prod unif) Set.univ * ∫⁻ w, g (rot w * S) ∂(area.prod unif) =
      (area.prod unif) Set.univ * ∫⁻ w, g (rot w)ᵀ ∂(area.prod unif) := by
    intro S hS
    have a1 : ∀ w', ∫⁻ w, g ((rot w')ᵀ * rot w * S) ∂(area.prod unif) = ∫⁻ w, g (rot w * S) ∂(area.prod unif) := fun w' =>
      rot_left (rot_isRot w').transpose (fun M => g (M * S)) (hg.comp (meas_mul measurable_id measurable_const))
    have a2 : ∀ w, ∫⁻ w', g ((rot w')ᵀ * rot w * S) ∂(area.prod unif) = ∫⁻ w, g (rot w)ᵀ ∂(area.prod unif) := fun w => by
      have := rot_left ((rot_isRot w).mul hS).transpose (fun M => g Mᵀ) (hg.comp meas_transpose)
      rw [← this]
      refine lintegral_congr fun w' => ?_
      rw [transpose_mul, transpose_transpose, mul_assoc]
    have sw : ∫⁻ w', ∫⁻ w, g ((rot w')ᵀ * rot w * S) ∂(area.prod unif) ∂(area.prod unif) =
        ∫⁻ w, ∫⁻ w', g ((rot w')ᵀ * rot w * S) ∂(area.prod unif) ∂(area.prod unif) := by
      refine lintegral_lintegral_swap ?_
      refine Measurable.aemeasurable (hg.comp ?_)
      exact meas_mul (meas_mul (meas_transpose.comp (rot_measurable.comp measurable_fst)) (rot_measurable.comp measurable_snd)) measurable_const
    simp_rw [a1, a2] at sw
    rw [lintegral_const, lintegral_const, mul_comm, mul_comm _ ((area.prod unif) Set.univ)] at sw
    exact sw
  have h1 := key S hS
  have h2 := key 1 ⟨by simp, by simp⟩
  simp only [mul_one] at h2
  rw [← h2] at h1
  by_cases h0 : (area.prod unif) Set.univ = 0
  · rw [Measure.measure_univ_eq_zero.mp h0]; simp
  · exact (ENNReal.mul_right_inj h0 (measure_ne_top _ _)).mp h1

end Jaqmc.Geometry.Area
