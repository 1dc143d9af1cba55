import Verif.Lemmas.SphereHaar
import Verif.Model.SphereMove
import Verif.Lemmas.CellMove
import Verif.Props.Average
import Mathlib.MeasureTheory.Constructions.Pi
/-!
C136: the moves on the sphere are as likely one way as the other with respect to area, and the wrapped moves in a periodic cell with respect to its volume, so
evaluations there report the variational energy too.
-/
namespace Jaqmc.Geometry.Props.Sphere
open MeasureTheory ProbabilityTheory Jaqmc.Geometry Jaqmc.Geometry.Area Matrix Jaqmc.Average Jaqmc.Average.Spec
open scoped ENNReal

/-- The law of the draws of one electron: a standard normal and a uniform number. -/
noncomputable def drawLaw : Measure (ℝ × ℝ) := (gaussianReal 0 1).prod unif

instance : IsProbabilityMeasure drawLaw := by unfold drawLaw; infer_instance

theorem target_rot (q : ℝ × ℝ) (σ a u : ℝ) : sphereTarget q.1 q.2 σ a u = (rot (q, u) * rotY (Real.arctan (a * σ))) *ᵥ e3 := by
  show frame q *ᵥ cartesian (Real.arctan (a * σ)) (u * 2 * Real.pi) = (frame q * spin u * rotY (Real.arctan (a * σ))) *ᵥ e3
  rw [mul_assoc (frame q), ← mulVec_mulVec]
  congr 1
  funext i
  fin_cases i <;> simp [spin, e3, cartesian, rotZ, rotY, Matrix.mul_apply, mulVec, dotProduct, Fin.sum_univ_three, mul_comm]

theorem rot_pole (q : ℝ × ℝ) (u : ℝ) : rot (q, u) *ᵥ e3 = dir q := by
  unfold rot
  rw [← mulVec_mulVec, spin_e3, frame_e3]

theorem rotY_mul (a b : ℝ) : rotY a * rotY b = rotY (a + b) := by
  ext i j
  fin_cases i <;> fin_cases j <;> simp [rotY, Matrix.mul_apply, Fin.sum_univ_three, Real.cos_add, Real.sin_add] <;> ring

theorem rotY_zero : rotY 0 = 1 := by
  ext i j
  fin_cases i <;> fin_cases j <;> simp [rotY]

theorem target_measurable (σ : ℝ) : Measurable fun p : (ℝ × ℝ) × (ℝ × ℝ) => sphereTarget p.1.1 p.1.2 σ p.2.1 p.2.2 := by
  simp_rw [target_rot]
  refine meas_mulVec (meas_mul (rot_measurable.comp ?_) (rotY_measurable.comp ?_)) _
  · exact measurable_fst.prodMk (measurable_snd.comp measurable_snd)
  · exact Real.continuous_arctan.measurable.comp ((measurable_fst.comp measurable_snd).mul_const σ)

theorem draws_split (T : ℝ × ℝ → ℝ → ℝ → ℝ≥0∞) (m0 : Measurable fun p : (ℝ × ℝ) × (ℝ × ℝ) => T p.1 p.2.1 p.2.2) :
    ∫⁻ q, ∫⁻ z, T q z.1 z.2 ∂drawLaw ∂area = ∫⁻ a, ∫⁻ q, ∫⁻ u, T q a u ∂unif ∂area ∂(gaussianReal 0 1) := by
  have e1 : ∀ q, ∫⁻ z, T q z.1 z.2 ∂drawLaw = ∫⁻ a, ∫⁻ u, T q a u ∂unif ∂(gaussianReal 0 1) := by
    intro q
    unfold drawLaw
    have mq : Measurable fun z : ℝ × ℝ => T q z.1 z.2 := m0.comp measurable_prodMk_left
    rw [lintegral_prod _ mq.aemeasurable]
  simp_rw [e1]
  have m1 : Measurable fun p : (ℝ × ℝ) × ℝ => ∫⁻ u, T p.1 p.2 u ∂unif := by
    have : Measurable fun p : ((ℝ × ℝ) × ℝ) × ℝ => T p.1.1 p.1.2 p.2 :=
      m0.comp ((measurable_fst.comp measurable_fst).prodMk ((measurable_snd.comp measurable_fst).prodMk measurable_snd))
    exact this.lintegral_prod_right'
  exact lintegral_lintegral_swap (μ := area) (ν := gaussianReal 0 1) (f := fun q a => ∫⁻ u, T q a u ∂unif) m1.aemeasurable

/-- The directions before and after a move. -/
theorem directions (σ : ℝ) (F : (Fin 3 → ℝ) × (Fin 3 → ℝ) → ℝ≥0∞) (hF : Measurable F) :
    ∫⁻ q, ∫⁻ z, F (dir q, sphereTarget q.1 q.2 σ z.1 z.2) ∂drawLaw ∂area =
      ∫⁻ q, ∫⁻ z, F (sphereTarget q.1 q.2 σ z.1 z.2, dir q) ∂drawLaw ∂area := by
  have gen : ∀ K : (Fin 3 → ℝ) × (Fin 3 → ℝ) → ℝ≥0∞, Measurable K →
      ∫⁻ q, ∫⁻ z, K (dir q, sphereTarget q.1 q.2 σ z.1 z.2) ∂drawLaw ∂area =
        ∫⁻ a, ∫⁻ w, K (rot w *ᵥ e3, (rot w * rotY (Real.arctan (a * σ))) *ᵥ e3) ∂(area.prod unif) ∂(gaussianReal 0 1) := by
    intro K hK
    rw [draws_split (fun q a u => K (dir q, sphereTarget q.1 q.2 σ a u)) (hK.comp ((dir_measurable.comp measurable_fst).prodMk (target_measurable σ)))]
    refine lintegral_congr fun a => ?_
    have m2 : Measurable fun w => K (rot w *ᵥ e3, (rot w * rotY (Real.arctan (a * σ))) *ᵥ e3) :=
      hK.comp ((meas_mulVec rot_measurable _).prodMk (meas_mulVec (meas_mul rot_measurable measurable_const) _))
    rw [lintegral_prod _ m2.aemeasurable]
    simp_rw [target_rot, rot_pole]
  rw [gen F hF, gen (fun p => F (p.2, p.1)) (hF.comp measurable_swap)]
  have hneg : MeasurePreserving (fun z : ℝ => -z) (gaussianReal 0 1) (gaussianReal 0 1) := ⟨measurable_neg, by rw [gaussianReal_map_neg, neg_zero]⟩
  have m3 : Measurable fun a : ℝ => ∫⁻ w, F ((rot w * rotY (Real.arctan (a * σ))) *ᵥ e3, rot w *ᵥ e3) ∂(area.prod unif) := by
    have : Measurable fun p : ℝ × ((ℝ × ℝ) × ℝ) => F ((rot p.2 * rotY (Real.arctan (p.1 * σ))) *ᵥ e3, rot p.2 *ᵥ e3) := by
      refine hF.comp ((meas_mulVec (meas_mul (rot_measurable.comp measurable_snd) (rotY_measurable.comp ?_)) _).prodMk (meas_mulVec (rot_measurable.comp measurable_snd) _))
      exact Real.continuous_arctan.measurable.comp (measurable_fst.mul_const σ)
    exact this.lintegral_prod_right'
  rw [← hneg.lintegral_comp m3]
  refine lintegral_congr fun a => ?_
  have hr := rot_right (rotY_isRot (Real.arctan (-a * σ))) (fun M => F (M *ᵥ e3, (M * rotY (Real.arctan (a * σ))) *ᵥ e3))
    (hF.comp ((meas_mulVec measurable_id _).prodMk (meas_mulVec (meas_mul measurable_id measurable_const) _)))
  rw [← hr]
  refine lintegral_congr fun w => ?_
  have : rot w * rotY (Real.arctan (-a * σ)) * rotY (Real.arctan (a * σ)) = rot w := by
    rw [mul_assoc, rotY_mul, neg_mul, Real.arctan_neg, neg_add_cancel, rotY_zero, mul_one]
  rw [this]

/-! ### Angles -/

/-- The angles of a direction. -/
noncomputable def ang (p : Fin 3 → ℝ) : ℝ × ℝ := (toAngles p).getD (0, 0)

theorem clip1_measurable : Measurable clip1 := by unfold clip1; fun_prop

theorem sign_measurable : Measurable fun y : ℝ => ((SignType.sign y : SignType) : ℝ) := by
  have : (fun y : ℝ => ((SignType.sign y : SignType) : ℝ)) = fun y => if 0 < y then 1 else if y < 0 then -1 else 0 := by
    funext y
    rcases lt_trichotomy y 0 with h | h | h
    · rw [sign_neg h, if_neg h.not_gt, if_pos h]; simp
    · subst h; simp
    · rw [sign_pos h, if_pos h]; simp
  rw [this]
  exact Measurable.ite (measurableSet_lt measurable_const measurable_id) measurable_const
    (Measurable.ite (measurableSet_lt measurable_id measurable_const) measurable_const measurable_const)

theorem ang_measurable : Measurable ang := by
  have : ang = fun p => if Real.sin (Real.arccos (clip1 (p 2))) = 0 then (0, 0) else
      (Real.arccos (clip1 (p 2)), ((SignType.sign (p 1) : SignType) : ℝ) * Real.arccos (clip1 (p 0 / Real.sin (Real.arccos (clip1 (p 2)))))) := by
    funext p
    unfold ang toAngles
    dsimp only
    split <;> rfl
  rw [this]
  have m2 : Measurable fun p : Fin 3 → ℝ => Real.arccos (clip1 (p 2)) := Real.measurable_arccos.comp (clip1_measurable.comp (measurable_pi_apply 2))
  have m3 : Measurable fun p : Fin 3 → ℝ => Real.sin (Real.arccos (clip1 (p 2))) := Real.measurable_sin.comp m2
  refine Measurable.ite (measurableSet_eq_fun m3 measurable_const) measurable_const (m2.prodMk ?_)
  refine (sign_measurable.comp (measurable_pi_apply 1)).mul (Real.measurable_arccos.comp (clip1_measurable.comp ?_))
  exact (measurable_pi_apply 0).div m3

theorem ang_dir (q : ℝ × ℝ) (hq : q ∈ Set.Ioo 0 Real.pi ×ˢ Set.Ioo (-Real.pi) Real.pi) : ang (dir q) = q := by
  obtain ⟨⟨h1, h2⟩, ⟨h3, h4⟩⟩ := hq
  have hs : 0 < Real.sin q.1 := Real.sin_pos_of_pos_of_lt_pi h1 h2
  have ht : Real.arccos (clip1 (dir q 2)) = q.1 := by
    show Real.arccos (clip1 (Real.cos q.1)) = q.1
    rw [clip1_of (Real.neg_one_le_cos _) (Real.cos_le_one _), Real.arccos_cos h1.le h2.le]
  unfold ang toAngles
  dsimp only
  rw [ht, if_neg hs.ne', Option.getD_some]
  have hx : dir q 0 / Real.sin q.1 = Real.cos q.2 := by
    show Real.sin q.1 * Real.cos q.2 / Real.sin q.1 = _
    field_simp
  rw [hx, clip1_of (Real.neg_one_le_cos _) (Real.cos_le_one _)]
  refine Prod.ext rfl ?_
  show ((SignType.sign (Real.sin q.1 * Real.sin q.2) : SignType) : ℝ) * Real.arccos (Real.cos q.2) = q.2
  rcases lt_trichotomy q.2 0 with h | h | h
  · have : Real.sin q.2 < 0 := Real.sin_neg_of_neg_of_neg_pi_lt h h3
    rw [sign_neg (mul_neg_of_pos_of_neg hs this), ← Real.cos_neg, Real.arccos_cos (by linarith) (by linarith)]
    simp
  · rw [h]; simp
  · have : 0 < Real.sin q.2 := Real.sin_pos_of_pos_of_lt_pi h h4
    rw [sign_pos (mul_pos hs this), Real.arccos_cos h.le h4.le]
    simp

theorem step_ang (σ : ℝ) (z q : ℝ × ℝ) : sphereStep σ z q = ang (sphereTarget q.1 q.2 σ z.1 z.2) := rfl

theorem step_measurable (σ : ℝ) : Measurable fun p : (ℝ × ℝ) × (ℝ × ℝ) => sphereStep σ p.2 p.1 := ang_measurable.comp (target_measurable σ)

/-- **C136.** The move of one electron on the sphere is as likely one way as the other, with respect to area, at every width. -/
theorem c136_move (σ : ℝ) : Reversible area drawLaw (sphereStep σ) := by
  intro f hf
  have h := directions σ (fun p => f (ang p.1, ang p.2)) (hf.comp ((ang_measurable.comp measurable_fst).prodMk (ang_measurable.comp measurable_snd)))
  have e1 : ∫⁻ q, ∫⁻ z, f (q, sphereStep σ z q) ∂drawLaw ∂area = ∫⁻ q, ∫⁻ z, f (ang (dir q), ang (sphereTarget q.1 q.2 σ z.1 z.2)) ∂drawLaw ∂area := by
    refine lintegral_congr_ae ?_
    filter_upwards [area_inside] with q hq
    rw [ang_dir q hq]
    rfl
  have e2 : ∫⁻ q, ∫⁻ z, f (sphereStep σ z q, q) ∂drawLaw ∂area = ∫⁻ q, ∫⁻ z, f (ang (sphereTarget q.1 q.2 σ z.1 z.2), ang (dir q)) ∂drawLaw ∂area := by
    refine lintegral_congr_ae ?_
    filter_upwards [area_inside] with q hq
    rw [ang_dir q hq]
    rfl
  rw [e1, e2]
  exact h

/-- **C136.** The area meant here is that of the sphere: an integral over space is one over the radius and the directions. -/
theorem c136_area (G : (Fin 3 → ℝ) → ℝ≥0∞) (hG : Measurable G) :
    ∫⁻ x, G x = ∫⁻ r in Set.Ioi (0 : ℝ), ENNReal.ofReal (r ^ 2) * ∫⁻ q, G (r • cartesian q.1 q.2) ∂area := sphere_formula G hG

theorem avoid_of_zero (T : ℝ × ℝ → ℝ × ℝ → Fin 3 → ℝ) (hT : Measurable fun p : (ℝ × ℝ) × (ℝ × ℝ) => T p.1 p.2) (s : Set (Fin 3 → ℝ)) (hs : MeasurableSet s)
    (h : ∫⁻ q, ∫⁻ z, s.indicator (1 : (Fin 3 → ℝ) → ℝ≥0∞) (T q z) ∂drawLaw ∂area = 0) : ∀ᵐ q ∂area, ∀ᵐ z ∂drawLaw, T q z ∉ s := by
  have mt : Measurable fun p : (ℝ × ℝ) × (ℝ × ℝ) => s.indicator (1 : (Fin 3 → ℝ) → ℝ≥0∞) (T p.1 p.2) := (measurable_one.indicator hs).comp hT
  have ml : Measurable fun q => ∫⁻ z, s.indicator (1 : (Fin 3 → ℝ) → ℝ≥0∞) (T q z) ∂drawLaw := mt.lintegral_prod_right'
  rw [lintegral_eq_zero_iff ml] at h
  filter_upwards [h] with q hq
  have mq : Measurable fun z : ℝ × ℝ => s.indicator (1 : (Fin 3 → ℝ) → ℝ≥0∞) (T q z) := mt.comp measurable_prodMk_left
  have hq' : ∫⁻ z, s.indicator (1 : (Fin 3 → ℝ) → ℝ≥0∞) (T q z) ∂drawLaw = 0 := hq
  rw [lintegral_eq_zero_iff mq] at hq'
  filter_upwards [hq'] with z hz hm
  have : s.indicator (1 : (Fin 3 → ℝ) → ℝ≥0∞) (T q z) = 0 := hz
  rw [Set.indicator_of_mem hm] at this
  exact one_ne_zero this

theorem target_avoid (σ : ℝ) (s : Set (Fin 3 → ℝ)) (hs : MeasurableSet s) (hn : ∀ᵐ q ∂area, dir q ∉ s) :
    ∀ᵐ q ∂area, ∀ᵐ z ∂drawLaw, sphereTarget q.1 q.2 σ z.1 z.2 ∉ s := by
  have mi : Measurable fun p : (Fin 3 → ℝ) × (Fin 3 → ℝ) => s.indicator (1 : (Fin 3 → ℝ) → ℝ≥0∞) p.2 := (measurable_one.indicator hs).comp measurable_snd
  have h := directions σ _ mi
  have z : ∫⁻ q, ∫⁻ _, s.indicator (1 : (Fin 3 → ℝ) → ℝ≥0∞) (dir q) ∂drawLaw ∂area = 0 := by
    rw [lintegral_congr_ae (g := fun _ => 0), lintegral_zero]
    filter_upwards [hn] with q hq
    rw [Set.indicator_of_notMem hq, lintegral_zero]
  exact avoid_of_zero (fun q z => sphereTarget q.1 q.2 σ z.1 z.2) (target_measurable σ) s hs (h.trans z)

/-- **C136.** Almost every move ends at proper angles, those of the rotated point. -/
theorem c136_defined (σ : ℝ) : ∀ᵐ q ∂area, ∀ᵐ z ∂drawLaw, ∃ q', sphereMove q.1 q.2 σ z.1 z.2 = some q' ∧ 0 < q'.1 ∧ q'.1 < Real.pi ∧ -Real.pi < q'.2 ∧ q'.2 < Real.pi ∧
    cartesian q'.1 q'.2 = sphereTarget q.1 q.2 σ z.1 z.2 := by
  have hB : MeasurableSet {X : Fin 3 → ℝ | X 1 = 0} := measurableSet_eq_fun (measurable_pi_apply 1) measurable_const
  have hn : ∀ᵐ q ∂area, dir q ∉ {X : Fin 3 → ℝ | X 1 = 0} := by
    have h0 : ∀ᵐ q ∂area, q.2 ≠ 0 := by
      have hv : ∀ᵐ q : ℝ × ℝ, q.2 ≠ 0 := by
        rw [ae_iff, Measure.volume_eq_prod]
        have : {a : ℝ × ℝ | ¬a.2 ≠ 0} = Set.univ ×ˢ {0} := by ext a; simp
        rw [this, Measure.prod_prod]
        simp
      exact (withDensity_absolutelyContinuous _ _).ae_le (ae_restrict_of_ae hv)
    filter_upwards [area_inside, h0] with q hq h0 h
    have h' : Real.sin q.1 * Real.sin q.2 = 0 := h
    rcases mul_eq_zero.mp h' with h1 | h1
    · exact (Real.sin_pos_of_pos_of_lt_pi hq.1.1 hq.1.2).ne' h1
    · rcases lt_or_gt_of_ne h0 with h2 | h2
      · exact (Real.sin_neg_of_neg_of_neg_pi_lt h2 hq.2.1).ne h1
      · exact (Real.sin_pos_of_pos_of_lt_pi h2 hq.2.2).ne' h1
  filter_upwards [target_avoid σ _ hB hn] with q hq
  filter_upwards [hq] with z hz
  have hz' : sphereTarget q.1 q.2 σ z.1 z.2 1 ≠ 0 := hz
  obtain ⟨θ, φ, e, h1, h2, h3, h4, h5⟩ := toAngles_spec _ (target_unit q.1 q.2 σ z.1 z.2) (Or.inl hz')
  refine ⟨(θ, φ), e, h1, h2, lt_of_le_of_ne h3 ?_, lt_of_le_of_ne h4 ?_, h5⟩
  · intro hp
    apply hz'
    have hp : -Real.pi = φ := hp
    rw [← h5, ← hp]
    simp [cartesian]
  · intro hp
    apply hz'
    have hp : φ = Real.pi := hp
    rw [← h5, hp]
    simp [cartesian]

/-- **C136.** So is the move of all the electrons of a walker on the sphere. -/
theorem c136_sphere {m : ℕ} (σ : ℝ) : Reversible (Measure.pi fun _ : Fin m => area) (Measure.pi fun _ : Fin m => drawLaw) (sphereMoveAll σ) :=
  Cell.reversible_pi (step_measurable σ) (c136_move σ) m

/-- **C136.** And the wrapped move of all the electrons of a walker in a periodic cell, with respect to the volume of the cell. -/
theorem c136_cell {m d : ℕ} (L : Matrix (Fin d) (Fin d) ℝ) (hL : IsUnit L.det) (σ : ℝ) :
    Reversible (Measure.pi fun _ : Fin m => volume.restrict {p : Fin d → ℝ | Spec.InCell L p})
      (Measure.pi fun _ : Fin m => Measure.pi fun _ : Fin d => gaussianReal 0 1) (pbcMoveAll L σ) := by
  have hmv : Measurable fun p : (Fin d → ℝ) × (Fin d → ℝ) => pbcProposal L σ p.2 p.1 := by
    unfold pbcProposal
    refine (Cell.wrap_measurable L).comp ?_
    fun_prop
  refine Cell.reversible_pi (move := pbcProposal L σ) hmv ?_ m
  intro f hf
  show ∫⁻ x, ∫⁻ z, f (x, pbcProposal L σ z x) ∂_ ∂Cell.cell L = ∫⁻ x, ∫⁻ z, f (pbcProposal L σ z x, x) ∂_ ∂Cell.cell L
  have hfin : SFinite (Cell.cell L) := by unfold Cell.cell; infer_instance
  have m1 : Measurable fun p : (Fin d → ℝ) × (Fin d → ℝ) => f (p.1, pbcProposal L σ p.2 p.1) := hf.comp (measurable_fst.prodMk hmv)
  have m2 : Measurable fun p : (Fin d → ℝ) × (Fin d → ℝ) => f (pbcProposal L σ p.2 p.1, p.1) := hf.comp (hmv.prodMk measurable_fst)
  have s1 := lintegral_lintegral_swap (μ := Cell.cell L) (ν := Measure.pi fun _ : Fin d => gaussianReal 0 1) (f := fun x z => f (x, pbcProposal L σ z x)) m1.aemeasurable
  have s2 := lintegral_lintegral_swap (μ := Cell.cell L) (ν := Measure.pi fun _ : Fin d => gaussianReal 0 1) (f := fun x z => f (pbcProposal L σ z x, x)) m2.aemeasurable
  rw [s1, s2]
  have hneg : MeasurePreserving (fun z : Fin d → ℝ => -z) (Measure.pi fun _ => gaussianReal 0 1) (Measure.pi fun _ => gaussianReal 0 1) := by
    have h1 : MeasurePreserving (fun z : ℝ => -z) (gaussianReal 0 1) (gaussianReal 0 1) := ⟨measurable_neg, by rw [gaussianReal_map_neg, neg_zero]⟩
    exact measurePreserving_pi (fun _ : Fin d => gaussianReal 0 1) (fun _ => gaussianReal 0 1) fun _ => h1
  have hm3 : Measurable fun z : Fin d → ℝ => ∫⁻ x, f (pbcProposal L σ z x, x) ∂Cell.cell L := m2.lintegral_prod_left'
  rw [← hneg.lintegral_comp hm3]
  refine lintegral_congr fun z => ?_
  have hin : ∀ᵐ x ∂Cell.cell L, Spec.InCell L x := ae_restrict_mem (Cell.cell_measurable L hL)
  have hw : ∀ x, Spec.InCell L x → wrap L x = x := by
    rintro x ⟨c, hc, hx⟩
    have h1 : x ᵥ* L⁻¹ = c := by
      have : x = c ᵥ* L := by funext k; rw [hx]; rfl
      rw [this, vecMul_vecMul, mul_nonsing_inv _ hL, vecMul_one]
    unfold wrap
    rw [h1]
    have : (fun i => pmod (c i) 1) = c := by
      funext i
      rw [Cell.pmod_one]
      exact Int.fract_eq_self.mpr (hc i)
    rw [this]
    funext k
    rw [hx]
    rfl
  have hs := Cell.cell_shift L hL (fun y => f (wrap L (y + -(σ • z)), wrap L y)) (by
    intro x k
    have e1 := wrap_translate L hL x k
    have e2 := wrap_translate L hL (x + -(σ • z)) k
    rw [e1, ← e2]
    congr 3
    funext j
    simp only [Pi.add_apply]
    ring) (σ • z)
  have l : ∫⁻ x, f (x, pbcProposal L σ z x) ∂Cell.cell L = ∫⁻ x, f (wrap L (x + σ • z + -(σ • z)), wrap L (x + σ • z)) ∂Cell.cell L := by
    refine lintegral_congr_ae ?_
    filter_upwards [hin] with x hx
    rw [add_neg_cancel_right, hw x hx]
    congr 2
    unfold pbcProposal
    congr 1
    funext k
    simp [mul_comm]
  have r : ∫⁻ x, f (pbcProposal L σ (-z) x, x) ∂Cell.cell L = ∫⁻ x, f (wrap L (x + -(σ • z)), wrap L x) ∂Cell.cell L := by
    refine lintegral_congr_ae ?_
    filter_upwards [hin] with x hx
    rw [hw x hx]
    congr 2
    unfold pbcProposal
    congr 1
    funext k
    simp [mul_comm]
  rw [l, hs, ← r]

/-! ### What evaluations report -/

open Jaqmc.Sampler Jaqmc.Average.Props Jaqmc.LossGrad.Spec

theorem sphereMoveAll_measurable {m : ℕ} (σ : ℝ) : Measurable fun p : (Fin m → ℝ × ℝ) × (Fin m → ℝ × ℝ) => sphereMoveAll σ p.2 p.1 :=
  Cell.move_pi_measurable (step_measurable σ) m

theorem pbcMoveAll_measurable {m d : ℕ} (L : Matrix (Fin d) (Fin d) ℝ) (σ : ℝ) :
    Measurable fun p : (Fin m → Fin d → ℝ) × (Fin m → Fin d → ℝ) => pbcMoveAll L σ p.2 p.1 := by
  refine measurable_pi_iff.mpr fun i => ?_
  unfold pbcMoveAll pbcProposal
  refine (Cell.wrap_measurable L).comp ?_
  fun_prop

variable {Ω Key : Type} {n d m : ℕ} [MeasurableSpace Ω] {P : Measure Ω} [IsProbabilityMeasure P]

/-- **C136.** An evaluation on the sphere: from walkers distributed by the squared wavefunction with respect to area, all walkers stay distributed so, and the average
of the reported energy is the variational energy. -/
theorem c136_sphere_energy (hd : 0 < d) (hn : 0 < n) {T : ℕ} (hT : 0 < T) {H : L2C (Measure.pi fun _ : Fin m => area) →ₗ.[ℂ] L2C (Measure.pi fun _ : Fin m => area)}
    (hs : Symmetric H) (φ : H.domain) (h0 : (φ : L2C (Measure.pi fun _ : Fin m => area)) ≠ 0) {ψ e : (Fin m → ℝ × ℝ) → ℂ} (hψ : Measurable ψ)
    (hφ : (φ : L2C (Measure.pi fun _ : Fin m => area)) =ᵐ[Measure.pi fun _ : Fin m => area] ψ) (he : IsLocalEnergy H φ e) {cfg : Cfg}
    {g : RandomRng Ω Key (Fin m → ℝ × ℝ) n} {keys : ℕ → Fin d → Key} {x₀ : Ω → Fin d → Batch Unit n (Fin m → ℝ × ℝ)} {s : State}
    (draws : ∀ i, Independent P (Measure.pi fun _ : Fin m => drawLaw) (fun k => g.noise k i) (fun k => g.uniform k i))
    (start : ∀ a i, StartsIn P (walkerLaw (Measure.pi fun _ : Fin m => area) ψ) (fun ω => x₀ ω a () i) (fun k => g.noise k i) (fun k => g.uniform k i))
    (fresh : ∀ a, (keysUsed g.split3 (fun t => keys t a) cfg.steps T).Nodup) (hst : Steady cfg s T) :
    (∀ k ≤ T, ∀ a i, P.map (fun ω => walkers cfg g sphereMoveAll ψ keys x₀ s ω k a () i) = walkerLaw (Measure.pi fun _ : Fin m => area) ψ) ∧
    ∃ r : Ω → ℂ, (∀ ω, reported cfg g sphereMoveAll ψ e keys x₀ s T ω = some (r ω)) ∧ Integrable r P ∧ ∫ ω, r ω ∂P = (energy H φ : ℂ) := by
  have S : Setup P (Measure.pi fun _ : Fin m => drawLaw) (Measure.pi fun _ : Fin m => area) cfg g sphereMoveAll ψ keys x₀ s T :=
    ⟨hψ, sphereMoveAll_measurable _, c136_sphere _, draws, start, fresh⟩
  exact ⟨fun k hk a i => c135_law S hst k hk a i, c135_energy hd hn hT hs φ h0 hφ he S hst⟩

/-- The volume of all the positions of `m` electrons in the home cell. -/
noncomputable abbrev cells (m : ℕ) {c : ℕ} (L : Matrix (Fin c) (Fin c) ℝ) : Measure (Fin m → Fin c → ℝ) :=
  Measure.pi fun _ : Fin m => volume.restrict {p : Fin c → ℝ | Spec.InCell L p}

/-- **C136.** The same for an evaluation of a solid, with respect to the volume of the simulation cell. -/
theorem c136_cell_energy (hd : 0 < d) (hn : 0 < n) {T : ℕ} (hT : 0 < T) {c : ℕ} (L : Matrix (Fin c) (Fin c) ℝ) (hL : IsUnit L.det)
    {H : L2C (cells m L) →ₗ.[ℂ] L2C (cells m L)}
    (hs : Symmetric H) (φ : H.domain) (h0 : (φ : L2C (cells m L)) ≠ 0) {ψ e : (Fin m → Fin c → ℝ) → ℂ} (hψ : Measurable ψ)
    (hφ : (φ : L2C (cells m L)) =ᵐ[cells m L] ψ) (he : IsLocalEnergy H φ e) {cfg : Cfg}
    {g : RandomRng Ω Key (Fin m → Fin c → ℝ) n} {keys : ℕ → Fin d → Key} {x₀ : Ω → Fin d → Batch Unit n (Fin m → Fin c → ℝ)} {s : State}
    (draws : ∀ i, Independent P (Measure.pi fun _ : Fin m => Measure.pi fun _ : Fin c => gaussianReal 0 1) (fun k => g.noise k i) (fun k => g.uniform k i))
    (start : ∀ a i, StartsIn P (walkerLaw (cells m L) ψ) (fun ω => x₀ ω a () i) (fun k => g.noise k i) (fun k => g.uniform k i))
    (fresh : ∀ a, (keysUsed g.split3 (fun t => keys t a) cfg.steps T).Nodup) (hst : Steady cfg s T) :
    (∀ k ≤ T, ∀ a i, P.map (fun ω => walkers cfg g (pbcMoveAll L) ψ keys x₀ s ω k a () i) = walkerLaw (cells m L) ψ) ∧
    ∃ r : Ω → ℂ, (∀ ω, reported cfg g (pbcMoveAll L) ψ e keys x₀ s T ω = some (r ω)) ∧ Integrable r P ∧ ∫ ω, r ω ∂P = (energy H φ : ℂ) := by
  have S : Setup P (Measure.pi fun _ : Fin m => Measure.pi fun _ : Fin c => gaussianReal 0 1) (cells m L) cfg g (pbcMoveAll L) ψ keys x₀ s T :=
    ⟨hψ, pbcMoveAll_measurable L _, c136_cell L hL _, draws, start, fresh⟩
  exact ⟨fun k hk a i => c135_law S hst k hk a i, c135_energy hd hn hT hs φ h0 hφ he S hst⟩

/-- **C136.** Runs that meet the hypotheses exist, on the sphere and in the cell, for every wavefunction and every operator. -/
theorem c136_exists (cfg : Cfg) (s : State) (d n m T : ℕ) :
    (∀ φ : L2C (Measure.pi fun _ : Fin m => area), φ ≠ 0 →
      ∃ (Ω Key : Type) (_ : MeasurableSpace Ω) (P : Measure Ω) (_ : IsProbabilityMeasure P) (g : RandomRng Ω Key (Fin m → ℝ × ℝ) n) (keys : ℕ → Fin d → Key)
        (x₀ : Ω → Fin d → Batch Unit n (Fin m → ℝ × ℝ)),
        Setup P (Measure.pi fun _ : Fin m => drawLaw) (Measure.pi fun _ : Fin m => area) cfg g sphereMoveAll φ keys x₀ s T) ∧
    ∀ (c : ℕ) (L : Matrix (Fin c) (Fin c) ℝ), IsUnit L.det → ∀ φ : L2C (cells m L), φ ≠ 0 →
      ∃ (Ω Key : Type) (_ : MeasurableSpace Ω) (P : Measure Ω) (_ : IsProbabilityMeasure P) (g : RandomRng Ω Key (Fin m → Fin c → ℝ) n) (keys : ℕ → Fin d → Key)
        (x₀ : Ω → Fin d → Batch Unit n (Fin m → Fin c → ℝ)),
        Setup P (Measure.pi fun _ : Fin m => Measure.pi fun _ : Fin c => gaussianReal 0 1) (cells m L) cfg g (pbcMoveAll L) φ keys x₀ s T := by
  constructor
  · intro φ h0
    have hprob := Jaqmc.LossGrad.Grad.law_prob h0
    have hψ : Measurable (φ : (Fin m → ℝ × ℝ) → ℂ) := (Lp.stronglyMeasurable φ).measurable
    obtain ⟨P, hP, g, keys, x₀, S⟩ := c135_exists (Measure.pi fun _ : Fin m => drawLaw) (Measure.pi fun _ : Fin m => area) _ hψ sphereMoveAll cfg s
      (sphereMoveAll_measurable _) (c136_sphere _) d n T
    exact ⟨_, _, _, P, hP, g, keys, x₀, S⟩
  · intro c L hL φ h0
    have hprob := Jaqmc.LossGrad.Grad.law_prob h0
    have hψ : Measurable (φ : (Fin m → Fin c → ℝ) → ℂ) := (Lp.stronglyMeasurable φ).measurable
    obtain ⟨P, hP, g, keys, x₀, S⟩ := c135_exists (Measure.pi fun _ : Fin m => Measure.pi fun _ : Fin c => gaussianReal 0 1) (cells m L) _ hψ (pbcMoveAll L) cfg s
      (pbcMoveAll_measurable L _) (c136_cell L hL _) d n T
    exact ⟨_, _, _, P, hP, g, keys, x₀, S⟩

/-- Two electrons on the sphere, on two devices with three walkers each, for forty steps: a projector and a wavefunction that is not its eigenfunction. -/
example (φ χ : L2C (Measure.pi fun _ : Fin 2 => area)) (hφ : ∀ᵐ x ∂(Measure.pi fun _ : Fin 2 => area), φ x ≠ 0) (h0 : φ ≠ 0) :
    ∃ (Ω Key : Type) (_ : MeasurableSpace Ω) (P : Measure Ω) (_ : IsProbabilityMeasure P) (g : RandomRng Ω Key (Fin 2 → ℝ × ℝ) 3) (keys : ℕ → Fin 2 → Key)
      (x₀ : Ω → Fin 2 → Batch Unit 3 (Fin 2 → ℝ × ℝ)) (r : Ω → ℂ),
      (∀ ω, reported ⟨10, 1 / 10, 100, 1 / 2, 55 / 100⟩ g sphereMoveAll φ (fun x => inner ℂ χ φ * (χ x / φ x)) keys x₀
        (init ⟨10, 1 / 10, 100, 1 / 2, 55 / 100⟩) 40 ω = some (r ω)) ∧
      ∫ ω, r ω ∂P = (energy (Jaqmc.LossGrad.Props.rankOne χ) (Jaqmc.LossGrad.Props.line φ χ 0) : ℂ) := by
  have e0 : ((Jaqmc.LossGrad.Props.line φ χ 0 : (Jaqmc.LossGrad.Props.rankOne χ).domain) : L2C (Measure.pi fun _ : Fin 2 => area)) = φ := by
    show φ + ((0 : ℝ) : ℂ) • χ = φ
    simp
  obtain ⟨Ω, Key, i1, P, i2, g, keys, x₀, S⟩ := (c136_exists ⟨10, 1 / 10, 100, 1 / 2, 55 / 100⟩ (init ⟨10, 1 / 10, 100, 1 / 2, 55 / 100⟩) 2 3 2 40).1 φ h0
  obtain ⟨-, r, h1, -, h3⟩ := c136_sphere_energy (by norm_num) (by norm_num) (by norm_num) (Jaqmc.LossGrad.Props.rankOne_symmetric χ)
    (Jaqmc.LossGrad.Props.line φ χ 0) (by rw [e0]; exact h0) (s := init ⟨10, 1 / 10, 100, 1 / 2, 55 / 100⟩) S.wavefunction (by rw [e0]) (Jaqmc.LossGrad.Props.line_local φ χ hφ) S.draws S.start S.fresh
    (Or.inl fun k h1 h2 => by show (0 + k) % 100 ≠ 0; omega)
  exact ⟨Ω, Key, i1, P, i2, g, keys, x₀, r, h1, h3⟩

end Jaqmc.Geometry.Props.Sphere
