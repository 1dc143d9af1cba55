import Verif.Props.SphereMove
import Mathlib.MeasureTheory.Function.JacobianOneDim
import Mathlib.Analysis.SpecialFunctions.Trigonometric.ArctanDeriv
/-!
The law of one move on the sphere has a density with respect to area: positive on the open half of the sphere around the start, zero on the other half (C138).
-/
namespace Jaqmc.Geometry.Area
open MeasureTheory ProbabilityTheory Jaqmc.Geometry Matrix Jaqmc.Average Jaqmc.Geometry.Props.Sphere
open scoped ENNReal

/-- The average over the azimuth. -/
noncomputable def around (F : (Fin 3 → ℝ) → ℝ≥0∞) (t : ℝ) : ℝ≥0∞ := ∫⁻ u, F (cartesian t (u * 2 * Real.pi)) ∂unif

theorem cartesian_measurable : Measurable fun p : ℝ × ℝ => cartesian p.1 p.2 := dir_measurable

theorem around_measurable {F : (Fin 3 → ℝ) → ℝ≥0∞} (hF : Measurable F) : Measurable (around F) := by
  have : Measurable fun p : ℝ × ℝ => F (cartesian p.1 (p.2 * 2 * Real.pi)) :=
    hF.comp (cartesian_measurable.comp (measurable_fst.prodMk ((measurable_snd.mul_const 2).mul_const _)))
  exact this.lintegral_prod_right'

theorem around_even (F : (Fin 3 → ℝ) → ℝ≥0∞) (t : ℝ) : around F (-t) = around F t := by
  unfold around
  rw [← circle (fun u => F (cartesian t (u * 2 * Real.pi))) (fun u => ?_) (1 / 2)]
  · refine lintegral_congr fun u => ?_
    congr 1
    have e : (u + 1 / 2) * 2 * Real.pi = u * 2 * Real.pi + Real.pi := by ring
    rw [e]
    funext i
    fin_cases i <;> simp [cartesian]
  · congr 1
    have e : (u + 1) * 2 * Real.pi = u * 2 * Real.pi + 2 * Real.pi := by ring
    rw [e]
    funext i
    fin_cases i <;> simp [cartesian]

/-- The azimuth from `-π` to `π`. -/
theorem around_eq (F : (Fin 3 → ℝ) → ℝ≥0∞) (t : ℝ) : ∫⁻ v in Set.Ioo (-Real.pi) Real.pi, F (cartesian t v) = ENNReal.ofReal (2 * Real.pi) * around F t := by
  have hpi := Real.pi_pos
  unfold around
  rw [← circle (fun u => F (cartesian t (u * 2 * Real.pi))) (fun u => ?_) (-(1 / 2))]
  · have himg : (fun u : ℝ => (u + -(1 / 2)) * 2 * Real.pi) '' Set.Ioo 0 1 = Set.Ioo (-Real.pi) Real.pi := by
      ext v
      constructor
      · rintro ⟨u, ⟨h0, h1⟩, rfl⟩
        constructor <;> dsimp only <;> nlinarith
      · rintro ⟨h0, h1⟩
        refine ⟨v / (2 * Real.pi) + 1 / 2, ⟨?_, ?_⟩, ?_⟩
        · have : -(1 / 2) < v / (2 * Real.pi) := by rw [lt_div_iff₀ (by positivity)]; linarith
          linarith
        · have : v / (2 * Real.pi) < 1 / 2 := by rw [div_lt_iff₀ (by positivity)]; linarith
          linarith
        · field_simp
          ring
    have h := lintegral_image_eq_lintegral_abs_deriv_mul (s := Set.Ioo 0 1) (f := fun u : ℝ => (u + -(1 / 2)) * 2 * Real.pi) (f' := fun _ => 2 * Real.pi) measurableSet_Ioo
      (fun u _ => by
        have : HasDerivAt (fun u : ℝ => (u + -(1 / 2)) * 2 * Real.pi) (1 * 2 * Real.pi) u := (((hasDerivAt_id u).add_const _).mul_const 2).mul_const _
        rw [one_mul] at this
        exact this.hasDerivWithinAt)
      (fun u _ w _ h => by
        have h' : (u + -(1 / 2)) * 2 * Real.pi = (w + -(1 / 2)) * 2 * Real.pi := h
        have := mul_right_cancel₀ hpi.ne' h'
        linarith) (fun v => F (cartesian t v))
    rw [himg] at h
    rw [h, lintegral_const_mul' _ _ ENNReal.ofReal_ne_top, abs_of_pos (by positivity)]
    congr 1
    unfold unif
    rw [setLIntegral_congr Ioo_ae_eq_Ico]
  · congr 1
    have e : (u + 1) * 2 * Real.pi = u * 2 * Real.pi + 2 * Real.pi := by ring
    rw [e]
    funext i
    fin_cases i <;> simp [cartesian]

theorem even_integral {h : ℝ → ℝ≥0∞} (he : ∀ x, h (-x) = h x) : ∫⁻ x, h x = 2 * ∫⁻ x in Set.Ioi (0 : ℝ), h x := by
  have h1 : ∫⁻ x in Set.Iio (0 : ℝ), h x = ∫⁻ x in Set.Ioi (0 : ℝ), h x := by
    have := (Measure.measurePreserving_neg (volume : Measure ℝ)).setLIntegral_comp_preimage_emb (MeasurableEquiv.neg ℝ).measurableEmbedding h (Set.Iio 0)
    rw [← this]
    have hs : (Neg.neg ⁻¹' Set.Iio (0 : ℝ)) = Set.Ioi 0 := by
      ext x
      simp
    rw [hs]
    exact lintegral_congr fun x => he x
  rw [← lintegral_add_compl h (measurableSet_Ioi (a := (0 : ℝ))), Set.compl_Ioi, setLIntegral_congr (Iio_ae_eq_Iic (a := (0 : ℝ))).symm, h1, two_mul]

/-- The density of the tilt angle, in terms of its cosine. -/
noncomputable def tilt (σ c : ℝ) : ℝ≥0∞ :=
  if 0 < c then ENNReal.ofReal (|σ|⁻¹ * (1 / c ^ 2)) * gaussianPDF 0 1 (Real.tan (Real.arccos c) / |σ|) / ENNReal.ofReal (Real.pi * Real.sin (Real.arccos c)) else 0

theorem tilt_measurable (σ : ℝ) : Measurable (tilt σ) := by
  unfold tilt
  refine Measurable.ite (measurableSet_lt measurable_const measurable_id) ?_ measurable_const
  have m1 : Measurable fun c : ℝ => Real.arccos c := Real.measurable_arccos
  have m2 : Measurable fun c : ℝ => Real.tan (Real.arccos c) := by
    simp_rw [Real.tan_eq_sin_div_cos]
    exact (Real.measurable_sin.comp m1).div (Real.measurable_cos.comp m1)
  have m3 : Measurable fun c : ℝ => Real.sin (Real.arccos c) := Real.measurable_sin.comp m1
  have m4 : Measurable fun c : ℝ => gaussianPDF 0 1 (Real.tan (Real.arccos c) / |σ|) := (measurable_gaussianPDF 0 1).comp (m2.div_const _)
  have m5 : Measurable fun c : ℝ => ENNReal.ofReal (|σ|⁻¹ * (1 / c ^ 2)) := by fun_prop
  exact (m5.mul m4).div (m3.const_mul _).ennreal_ofReal

theorem tilt_pos {σ : ℝ} (hσ : σ ≠ 0) {c : ℝ} (hc : 0 < c) : tilt σ c ≠ 0 := by
  unfold tilt
  rw [if_pos hc]
  refine ENNReal.div_ne_zero.mpr ⟨mul_ne_zero ?_ (gaussianPDF_pos 0 one_ne_zero _).ne', ENNReal.ofReal_ne_top⟩
  have := abs_pos.mpr hσ
  exact (ENNReal.ofReal_pos.mpr (by positivity)).ne'

theorem tan_image {w : ℝ} (hw : 0 < w) : (fun t => Real.tan t / w) '' Set.Ioo 0 (Real.pi / 2) = Set.Ioi 0 := by
  ext a
  constructor
  · rintro ⟨t, ⟨h0, h1⟩, rfl⟩
    exact div_pos (Real.tan_pos_of_pos_of_lt_pi_div_two h0 h1) hw
  · intro ha
    refine ⟨Real.arctan (a * w), ⟨?_, Real.arctan_lt_pi_div_two _⟩, ?_⟩
    · rw [← Real.arctan_zero]
      exact Real.arctan_strictMono (mul_pos ha hw)
    · dsimp only
      rw [Real.tan_arctan]
      field_simp

theorem draws_around (σ : ℝ) (F : (Fin 3 → ℝ) → ℝ≥0∞) (hF : Measurable F) :
    ∫⁻ z, F (cartesian (Real.arctan (z.1 * σ)) (z.2 * 2 * Real.pi)) ∂drawLaw = ∫⁻ a, around F (Real.arctan (a * |σ|)) ∂(gaussianReal 0 1) := by
  have m1 : Measurable fun z : ℝ × ℝ => Real.arctan (z.1 * σ) := Real.continuous_arctan.measurable.comp (measurable_fst.mul_const σ)
  have m2 : Measurable fun z : ℝ × ℝ => z.2 * 2 * Real.pi := (measurable_snd.mul_const 2).mul_const _
  have m3 : Measurable fun z : ℝ × ℝ => cartesian (Real.arctan (z.1 * σ)) (z.2 * 2 * Real.pi) := by
    have h := cartesian_measurable.comp (m1.prodMk m2)
    exact h
  have mF : Measurable fun z : ℝ × ℝ => F (cartesian (Real.arctan (z.1 * σ)) (z.2 * 2 * Real.pi)) := hF.comp m3
  unfold drawLaw
  rw [lintegral_prod _ mF.aemeasurable]
  congr 1
  funext a
  change around F (Real.arctan (a * σ)) = _
  rcases abs_choice σ with h | h
  · rw [h]
  · rw [h, mul_neg, Real.arctan_neg, around_even]

theorem gauss_tilt {w : ℝ} (hw : 0 < w) (A : ℝ → ℝ≥0∞) (hA : Measurable A) (he : ∀ t, A (-t) = A t) :
    ∫⁻ a, A (Real.arctan (a * w)) ∂(gaussianReal 0 1) =
      2 * ∫⁻ t in Set.Ioo 0 (Real.pi / 2), ENNReal.ofReal (w⁻¹ * (1 / Real.cos t ^ 2)) * (gaussianPDF 0 1 (Real.tan t / w) * A t) := by
  have mg : Measurable fun a => A (Real.arctan (a * w)) := hA.comp (Real.continuous_arctan.measurable.comp (measurable_id.mul_const w))
  rw [gaussianReal_of_var_ne_zero 0 one_ne_zero, lintegral_withDensity_eq_lintegral_mul _ (measurable_gaussianPDF 0 1) mg]
  simp only [Pi.mul_apply]
  rw [even_integral (fun x => ?_)]
  · congr 1
    have h := lintegral_image_eq_lintegral_abs_deriv_mul (s := Set.Ioo 0 (Real.pi / 2)) (f := fun t => Real.tan t / w) (f' := fun t => 1 / Real.cos t ^ 2 / w) measurableSet_Ioo
      (fun t ht => by
        have hc : Real.cos t ≠ 0 := (Real.cos_pos_of_mem_Ioo ⟨by linarith [ht.1, Real.pi_pos], ht.2⟩).ne'
        exact ((Real.hasDerivAt_tan hc).div_const _).hasDerivWithinAt)
      (fun t ht s hs h => by
        have h' : Real.tan t / w = Real.tan s / w := h
        have h'' : Real.tan t = Real.tan s := by
          have := congrArg (· * w) h'
          simpa [hw.ne'] using this
        exact Real.injOn_tan ⟨by linarith [ht.1, Real.pi_pos], ht.2⟩ ⟨by linarith [hs.1, Real.pi_pos], hs.2⟩ h'') (fun a => gaussianPDF 0 1 a * A (Real.arctan (a * w)))
    rw [tan_image hw] at h
    rw [h]
    refine setLIntegral_congr_fun measurableSet_Ioo fun t ht => ?_
    have hc : 0 < Real.cos t := Real.cos_pos_of_mem_Ioo ⟨by linarith [ht.1, Real.pi_pos], ht.2⟩
    rw [div_mul_cancel₀ _ hw.ne', Real.arctan_tan (by linarith [ht.1, Real.pi_pos]) ht.2, abs_of_pos (by positivity)]
    congr 2
    field_simp
  · have : gaussianPDF 0 1 (-x) = gaussianPDF 0 1 x := by simp [gaussianPDF, gaussianPDFReal]
    rw [this, neg_mul, Real.arctan_neg, he]

theorem tilted_left {σ : ℝ} (hσ : σ ≠ 0) (F : (Fin 3 → ℝ) → ℝ≥0∞) (hF : Measurable F) :
    ∫⁻ z, F (cartesian (Real.arctan (z.1 * σ)) (z.2 * 2 * Real.pi)) ∂drawLaw = 2 * ∫⁻ t in Set.Ioo 0 (Real.pi / 2),
      ENNReal.ofReal (|σ|⁻¹ * (1 / Real.cos t ^ 2)) * (gaussianPDF 0 1 (Real.tan t / |σ|) * around F t) := by
  rw [draws_around σ F hF, gauss_tilt (abs_pos.mpr hσ) _ (around_measurable hF) (around_even F)]

theorem area_split (G : ℝ × ℝ → ℝ≥0∞) (hG : Measurable G) :
    ∫⁻ q, G q ∂area = ∫⁻ t in Set.Ioo 0 Real.pi, ∫⁻ v in Set.Ioo (-Real.pi) Real.pi, ENNReal.ofReal (Real.sin t) * G (t, v) := by
  have msin : Measurable fun q : ℝ × ℝ => ENNReal.ofReal (Real.sin q.1) := (Real.measurable_sin.comp measurable_fst).ennreal_ofReal
  have mall : Measurable fun q : ℝ × ℝ => ENNReal.ofReal (Real.sin q.1) * G q := msin.mul hG
  unfold area
  rw [lintegral_withDensity_eq_lintegral_mul _ msin hG]
  simp only [Pi.mul_apply]
  rw [Measure.volume_eq_prod, ← Measure.prod_restrict, lintegral_prod _ mall.aemeasurable]

theorem tilted_right (σ : ℝ) (F : (Fin 3 → ℝ) → ℝ≥0∞) (hF : Measurable F) :
    ∫⁻ q, tilt σ (dir q 2) * F (dir q) ∂area =
      ∫⁻ t in Set.Ioo 0 Real.pi, ENNReal.ofReal (Real.sin t) * tilt σ (Real.cos t) * (ENNReal.ofReal (2 * Real.pi) * around F t) := by
  have md : Measurable fun q : ℝ × ℝ => dir q 2 := (measurable_pi_apply 2).comp dir_measurable
  have mK : Measurable fun q : ℝ × ℝ => tilt σ (dir q 2) := (tilt_measurable σ).comp md
  have mFd : Measurable fun q : ℝ × ℝ => F (dir q) := hF.comp dir_measurable
  have mKF : Measurable fun q : ℝ × ℝ => tilt σ (dir q 2) * F (dir q) := mK.mul mFd
  rw [area_split _ mKF]
  refine lintegral_congr fun t => ?_
  have mc : Measurable fun v : ℝ => cartesian t v := by
    have h := cartesian_measurable.comp (measurable_prodMk_left (x := t))
    exact h
  have mt : Measurable fun v : ℝ => F (cartesian t v) := hF.comp mc
  rw [← around_eq, ← lintegral_const_mul _ mt]
  refine lintegral_congr fun v => ?_
  have ed : dir (t, v) = cartesian t v := rfl
  have e2 : dir (t, v) 2 = Real.cos t := rfl
  rw [e2, ed, mul_assoc]

theorem tilted_point (σ : ℝ) (A : ℝ≥0∞) {t : ℝ} (ht : t ∈ Set.Ioo 0 (Real.pi / 2)) :
    2 * (ENNReal.ofReal (|σ|⁻¹ * (1 / Real.cos t ^ 2)) * (gaussianPDF 0 1 (Real.tan t / |σ|) * A)) =
      ENNReal.ofReal (Real.sin t) * tilt σ (Real.cos t) * (ENNReal.ofReal (2 * Real.pi) * A) := by
  have hpi := Real.pi_pos
  have hc : 0 < Real.cos t := Real.cos_pos_of_mem_Ioo ⟨by linarith [ht.1], ht.2⟩
  have hs : 0 < Real.sin t := Real.sin_pos_of_pos_of_lt_pi ht.1 (by linarith [ht.2])
  unfold tilt
  rw [if_pos hc, Real.arccos_cos ht.1.le (by linarith [ht.2])]
  set D := ENNReal.ofReal (|σ|⁻¹ * (1 / Real.cos t ^ 2)) * gaussianPDF 0 1 (Real.tan t / |σ|) with hD
  have e2 : ENNReal.ofReal (2 * Real.pi) * ENNReal.ofReal (Real.sin t) = 2 * ENNReal.ofReal (Real.pi * Real.sin t) := by
    rw [← ENNReal.ofReal_mul (by positivity), mul_assoc, ENNReal.ofReal_mul (by norm_num)]
    norm_num
  have hp0 : ENNReal.ofReal (Real.pi * Real.sin t) ≠ 0 := (ENNReal.ofReal_pos.mpr (by positivity)).ne'
  calc 2 * (ENNReal.ofReal (|σ|⁻¹ * (1 / Real.cos t ^ 2)) * (gaussianPDF 0 1 (Real.tan t / |σ|) * A))
      = 2 * (D * A) := by rw [hD]; ring
    _ = 2 * (ENNReal.ofReal (Real.pi * Real.sin t) * (D / ENNReal.ofReal (Real.pi * Real.sin t))) * A := by
        rw [ENNReal.mul_div_cancel hp0 ENNReal.ofReal_ne_top]; ring
    _ = (ENNReal.ofReal (2 * Real.pi) * ENNReal.ofReal (Real.sin t)) * (D / ENNReal.ofReal (Real.pi * Real.sin t)) * A := by rw [e2]; ring
    _ = _ := by ring

/-- The tilted direction a move adds to the start at the pole has a density with respect to area. -/
theorem tilted_law {σ : ℝ} (hσ : σ ≠ 0) (F : (Fin 3 → ℝ) → ℝ≥0∞) (hF : Measurable F) :
    ∫⁻ z, F (cartesian (Real.arctan (z.1 * σ)) (z.2 * 2 * Real.pi)) ∂drawLaw = ∫⁻ q, tilt σ (dir q 2) * F (dir q) ∂area := by
  have hpi := Real.pi_pos
  rw [tilted_left hσ F hF, tilted_right σ F hF]
  have hsplit : Set.Ioo 0 Real.pi = Set.Ioo 0 (Real.pi / 2) ∪ Set.Ico (Real.pi / 2) Real.pi := by
    rw [Set.Ioo_union_Ico_eq_Ioo (by linarith) (by linarith)]
  rw [hsplit, lintegral_union measurableSet_Ico (Set.disjoint_left.mpr fun t h h' => absurd h.2 (not_lt.mpr h'.1))]
  have hz : ∫⁻ t in Set.Ico (Real.pi / 2) Real.pi, ENNReal.ofReal (Real.sin t) * tilt σ (Real.cos t) * (ENNReal.ofReal (2 * Real.pi) * around F t) = 0 := by
    rw [setLIntegral_congr_fun (g := fun _ => 0) measurableSet_Ico, lintegral_zero]
    intro t ht
    have : ¬ 0 < Real.cos t := not_lt.mpr (Real.cos_nonpos_of_pi_div_two_le_of_le ht.1 (by linarith [ht.2]))
    simp [tilt, this]
  rw [hz, add_zero, ← lintegral_const_mul' _ _ (by norm_num)]
  exact setLIntegral_congr_fun measurableSet_Ioo fun t ht => (tilted_point σ (around F t) ht)

/-- The density of a move from one place to another. -/
noncomputable def hop (σ : ℝ) (p : (ℝ × ℝ) × (ℝ × ℝ)) : ℝ≥0∞ := tilt σ (dir p.1 ⬝ᵥ dir p.2)

theorem dot_measurable : Measurable fun p : (ℝ × ℝ) × (ℝ × ℝ) => dir p.1 ⬝ᵥ dir p.2 := by
  unfold dotProduct
  refine Finset.measurable_sum _ fun i _ => ?_
  exact ((measurable_pi_apply i).comp (dir_measurable.comp measurable_fst)).mul ((measurable_pi_apply i).comp (dir_measurable.comp measurable_snd))

theorem hop_measurable (σ : ℝ) : Measurable (hop σ) := (tilt_measurable σ).comp dot_measurable

theorem frame_third (x : ℝ × ℝ) (v : Fin 3 → ℝ) : ((frame x)ᵀ *ᵥ v) 2 = dir x ⬝ᵥ v := by
  rw [← frame_e3 x]
  simp [mulVec, dotProduct, Fin.sum_univ_three, e3, Matrix.transpose_apply]

theorem hop_law {σ : ℝ} (hσ : σ ≠ 0) (x : ℝ × ℝ) (f : ℝ × ℝ → ℝ≥0∞) (hf : Measurable f) :
    ∫⁻ z, f (sphereStep σ z x) ∂drawLaw = ∫⁻ y, hop σ (x, y) * f y ∂area := by
  have hR := frame_isRot x
  have hRt := hR.transpose
  have mG : Measurable fun v : Fin 3 → ℝ => f (ang (frame x *ᵥ v)) := hf.comp (ang_measurable.comp (mulVec_meas _))
  have h1 := tilted_law hσ _ mG
  have e1 : ∀ z : ℝ × ℝ, f (sphereStep σ z x) = f (ang (frame x *ᵥ cartesian (Real.arctan (z.1 * σ)) (z.2 * 2 * Real.pi))) := fun z => rfl
  simp_rw [e1]
  rw [h1]
  have m2 : Measurable fun v : Fin 3 → ℝ => tilt σ (dir x ⬝ᵥ v) * f (ang v) := by
    refine ((tilt_measurable σ).comp ?_).mul (hf.comp ang_measurable)
    unfold dotProduct
    exact Finset.measurable_sum _ fun i _ => (measurable_pi_apply i).const_mul _
  have h2 := area_rotation hR _ m2
  have e2 : ∀ q, dir x ⬝ᵥ (frame x *ᵥ dir q) = dir q 2 := by
    intro q
    rw [← frame_third, mulVec_mulVec, hR.orth, one_mulVec]
  simp_rw [e2] at h2
  rw [h2]
  refine lintegral_congr_ae ?_
  filter_upwards [area_inside] with y hy
  rw [ang_dir y hy]
  rfl

/-- A move never lands in a set without area. -/
theorem hop_ac {σ : ℝ} (hσ : σ ≠ 0) (x : ℝ × ℝ) : drawLaw.map (fun z => sphereStep σ z x) ≪ area := by
  have hm : Measurable fun z : ℝ × ℝ => sphereStep σ z x := by
    have h := (step_measurable σ).comp (measurable_prodMk_left (x := x))
    exact h
  refine Measure.AbsolutelyContinuous.mk fun s hs h0 => ?_
  have mi : Measurable (s.indicator (1 : ℝ × ℝ → ℝ≥0∞)) := measurable_one.indicator hs
  have mh : Measurable fun y => hop σ (x, y) := (hop_measurable σ).comp measurable_prodMk_left
  have mm : Measurable fun y => hop σ (x, y) * s.indicator (1 : ℝ × ℝ → ℝ≥0∞) y := mh.mul mi
  rw [← lintegral_indicator_one hs, lintegral_map mi hm, hop_law hσ x (s.indicator 1) mi, lintegral_eq_zero_iff mm]
  filter_upwards [measure_eq_zero_iff_ae_notMem.mp h0] with y hy
  simp [Set.indicator_of_notMem hy]

/-- Two places that are not opposite have a region both can see. -/
theorem meeting {x y : ℝ × ℝ} (h : dir x + dir y ≠ 0) : area {z | 0 < dir x ⬝ᵥ dir z ∧ 0 < dir z ⬝ᵥ dir y} ≠ 0 := by
  intro h0
  set s : Set (Fin 3 → ℝ) := {X | 0 < dir x ⬝ᵥ X ∧ 0 < X ⬝ᵥ dir y} with hs
  have hc1 : Continuous fun X : Fin 3 → ℝ => dir x ⬝ᵥ X := by unfold dotProduct; fun_prop
  have hc2 : Continuous fun X : Fin 3 → ℝ => X ⬝ᵥ dir y := by unfold dotProduct; fun_prop
  have hopen : IsOpen s := (isOpen_lt continuous_const hc1).inter (isOpen_lt continuous_const hc2)
  have hcos : 0 < 1 + dir x ⬝ᵥ dir y := by
    have h1 : (dir x + dir y) ⬝ᵥ (dir x + dir y) = 2 * (1 + dir x ⬝ᵥ dir y) := by
      rw [add_dotProduct, dotProduct_add, dotProduct_add, dir_dot, dir_dot, dotProduct_comm (dir y) (dir x)]
      ring
    have h2 : 0 < (dir x + dir y) ⬝ᵥ (dir x + dir y) := by
      refine lt_of_le_of_ne (Finset.sum_nonneg fun i _ => mul_self_nonneg _) fun h' => h (dotProduct_self_eq_zero.mp h'.symm)
    linarith
  have hne : s.Nonempty := ⟨dir x + dir y, by
    rw [hs]
    refine ⟨?_, ?_⟩
    · rw [dotProduct_add, dir_dot]
      exact hcos
    · rw [add_dotProduct, dir_dot]
      linarith⟩
  have hpos : 0 < (volume : Measure (Fin 3 → ℝ)) s := hopen.measure_pos volume hne
  have mi : Measurable (s.indicator (1 : (Fin 3 → ℝ) → ℝ≥0∞)) := measurable_one.indicator hopen.measurableSet
  have hf := sphere_formula _ mi
  rw [lintegral_indicator_one hopen.measurableSet] at hf
  have hz : ∫⁻ r in Set.Ioi (0 : ℝ), ENNReal.ofReal (r ^ 2) * ∫⁻ q, s.indicator (1 : (Fin 3 → ℝ) → ℝ≥0∞) (r • dir q) ∂area = 0 := by
    rw [setLIntegral_congr_fun (g := fun _ => 0) measurableSet_Ioi, lintegral_zero]
    intro r hr
    have hr' : 0 < r := hr
    have : ∫⁻ q, s.indicator (1 : (Fin 3 → ℝ) → ℝ≥0∞) (r • dir q) ∂area = 0 := by
      have md : Measurable fun q => s.indicator (1 : (Fin 3 → ℝ) → ℝ≥0∞) (r • dir q) := mi.comp (dir_measurable.const_smul r)
      rw [lintegral_eq_zero_iff md]
      filter_upwards [measure_eq_zero_iff_ae_notMem.mp h0] with q hq
      refine Set.indicator_of_notMem (fun hin => hq ?_) _
      obtain ⟨a1, a2⟩ := hin
      rw [dotProduct_smul, smul_eq_mul] at a1
      rw [smul_dotProduct, smul_eq_mul] at a2
      exact ⟨pos_of_mul_pos_right a1 hr'.le, pos_of_mul_pos_right a2 hr'.le⟩
    dsimp only
    rw [this, mul_zero]
  rw [hz] at hf
  exact hpos.ne' hf

/-- Almost no place is opposite a given one. -/
theorem not_opposite (x : ℝ × ℝ) : ∀ᵐ y ∂area, dir x + dir y ≠ 0 := by
  have h1 : area {ang (-dir x)} = 0 := by
    unfold area
    rw [withDensity_apply _ (measurableSet_singleton _)]
    exact setLIntegral_measure_zero _ _ (le_antisymm ((Measure.restrict_apply_le _ _).trans (measure_singleton _).le) zero_le)
  filter_upwards [area_inside, measure_eq_zero_iff_ae_notMem.mp h1] with y hy hne h
  have : dir y = -dir x := eq_neg_of_add_eq_zero_right h
  exact hne (by rw [← this, ang_dir y hy]; exact Set.mem_singleton y)

end Jaqmc.Geometry.Area
