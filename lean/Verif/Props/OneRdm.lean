import Verif.Lemmas.Monopole
/-! C97: the one-body reduced density matrix on the Haldane sphere. -/
namespace Jaqmc.HallStats.Props
open MeasureTheory Set Jaqmc.HallStats.Spec
open scoped BigOperators ComplexConjugate ENNReal

variable {n : ℕ}

theorem ratio_eq (f : (Fin n → ℝ × ℝ) → Option ℂ) (R R' : Fin n → ℝ × ℝ) : ratio (f R') (f R) = amplitude (f R') / amplitude (f R) := by
  cases h1 : f R' <;> cases h2 : f R <;> simp [ratio, amplitude, Complex.exp_sub]

theorem measurable_conj {β : Type} [MeasurableSpace β] {g : β → ℂ} (h : Measurable g) : Measurable fun b => conj (g b) :=
  Complex.continuous_conj.measurable.comp h

/-- The integrand of the density matrix. -/
noncomputable def kern (φ χ : ℝ × ℝ → ℂ) (ψ : (Fin n → ℝ × ℝ) → ℂ) (a : Fin n) (p : (Fin n → ℝ × ℝ) × (ℝ × ℝ)) : ℂ :=
  φ (p.1 a) * conj (χ p.2) * conj (ψ p.1) * ψ (Function.update p.1 a p.2)

theorem measurable_kern {φ χ : ℝ × ℝ → ℂ} {ψ : (Fin n → ℝ × ℝ) → ℂ} (hφ : Measurable φ) (hχ : Measurable χ) (hψ : Measurable ψ) (a : Fin n) :
    Measurable (kern φ χ ψ a) := by
  unfold kern
  refine Measurable.mul (Measurable.mul (Measurable.mul ?_ ?_) ?_) ?_
  · exact hφ.comp ((measurable_pi_apply a).comp measurable_fst)
  · exact measurable_conj (hχ.comp measurable_snd)
  · exact measurable_conj (hψ.comp measurable_fst)
  · exact hψ.comp (measurable_update' a)

theorem integrable_kern {φ χ : ℝ × ℝ → ℂ} {ψ : (Fin n → ℝ × ℝ) → ℂ} (hφ : Measurable φ) (hχ : Measurable χ) (hψ : Measurable ψ) {K L C : ℝ}
    (bφ : ∀ r, ‖φ r‖ ≤ K) (bχ : ∀ r, ‖χ r‖ ≤ L) (bψ : ∀ R, ‖ψ R‖ ≤ C) (a : Fin n) {μ : Measure ((Fin n → ℝ × ℝ) × (ℝ × ℝ))} [IsFiniteMeasure μ] :
    Integrable (kern φ χ ψ a) μ := by
  have hK : 0 ≤ K := (norm_nonneg _).trans (bφ (0, 0))
  have hL : 0 ≤ L := (norm_nonneg _).trans (bχ (0, 0))
  have hC : 0 ≤ C := (norm_nonneg _).trans (bψ fun _ => (0, 0))
  refine Integrable.of_bound (measurable_kern hφ hχ hψ a).aestronglyMeasurable (K * L * C * C) (Filter.Eventually.of_forall fun p => ?_)
  unfold kern
  rw [norm_mul, norm_mul, norm_mul, RCLike.norm_conj, RCLike.norm_conj]
  refine mul_le_mul (mul_le_mul (mul_le_mul (bφ _) (bχ _) (norm_nonneg _) hK) (bψ _) (norm_nonneg _) (by positivity)) (bψ _) (norm_nonneg _) (by positivity)

instance {ψ : (Fin n → ℝ × ℝ) → ℂ} : SFinite (law ψ) := by unfold law; infer_instance

theorem law_prod (ψ : (Fin n → ℝ × ℝ) → ℂ) (hψ : Measurable ψ) :
    (law ψ).prod (ENNReal.ofReal (1 / (4 * Real.pi)) • area) =
      (ENNReal.ofReal (normSq ψ)⁻¹ * ENNReal.ofReal (1 / (4 * Real.pi))) • ((areaN n).prod area).withDensity fun p => ENNReal.ofReal (‖ψ p.1‖ ^ 2) := by
  unfold law
  rw [Measure.prod_smul_left, Measure.prod_smul_right, smul_smul, prod_withDensity_left (by fun_prop)]

/-- `law` is a probability law. -/
theorem law_prob {ψ : (Fin n → ℝ × ℝ) → ℂ} (h : Regular ψ) : IsProbabilityMeasure (law ψ) := by
  obtain ⟨C, hC⟩ := h.bound
  have hm := h.meas
  constructor
  unfold law
  rw [Measure.smul_apply, withDensity_apply _ MeasurableSet.univ, Measure.restrict_univ, ← ofReal_integral_eq_lintegral_ofReal]
  · have : ∫ R, ‖ψ R‖ ^ 2 ∂areaN n = normSq ψ := rfl
    rw [this, smul_eq_mul, ← ENNReal.ofReal_mul (inv_nonneg.2 h.pos.le), inv_mul_cancel₀ h.pos.ne', ENNReal.ofReal_one]
  · refine Integrable.of_bound (by fun_prop) (C ^ 2) (Filter.Eventually.of_forall fun R => ?_)
    rw [Real.norm_eq_abs, abs_of_nonneg (by positivity)]
    exact pow_le_pow_left₀ (norm_nonneg _) (hC R) 2
  · exact Filter.Eventually.of_forall fun R => by positivity

/-- C97: the two uniform draws give a uniform point of the sphere. -/
theorem c97_sample : Measure.map sampleSphere draws = ENNReal.ofReal (1 / (4 * Real.pi)) • area := draws_map

/-- The value of the estimator as a function of the walker and the sampled point. -/
noncomputable def val (flux i j : ℕ) (ψ : (Fin n → ℝ × ℝ) → ℂ) (p : (Fin n → ℝ × ℝ) × (ℝ × ℝ)) : ℂ :=
  ((4 * Real.pi : ℝ) : ℂ) * ∑ a, ψ (Function.update p.1 a p.2) / ψ p.1 * orbital flux i (p.1 a) * conj (orbital flux j p.2)

theorem measurable_val {flux i j : ℕ} (hi : i ≤ flux) (hj : j ≤ flux) {ψ : (Fin n → ℝ × ℝ) → ℂ} (hm : Measurable ψ) : Measurable (val flux i j ψ) := by
  refine Measurable.const_mul (Finset.measurable_sum _ fun a _ => ?_) _
  refine Measurable.mul (Measurable.mul (Measurable.div (hm.comp (measurable_update' a)) (hm.comp measurable_fst)) ?_)
    (measurable_conj ((measurable_orbital hj).comp measurable_snd))
  exact (measurable_orbital hi).comp ((measurable_pi_apply a).comp measurable_fst)

theorem oneRdm_val (flux i j : ℕ) (f : (Fin n → ℝ × ℝ) → Option ℂ) (x : (Fin n → ℝ × ℝ) × (ℝ × ℝ)) :
    oneRdm flux f x.1 x.2 i j = val flux i j (fun R => amplitude (f R)) (Prod.map id sampleSphere x) := by
  simp only [oneRdm, val, ratio_eq, Prod.map_fst, Prod.map_snd, id]

theorem val_kern (flux i j : ℕ) (ψ : (Fin n → ℝ × ℝ) → ℂ) (p : (Fin n → ℝ × ℝ) × (ℝ × ℝ)) :
    (ENNReal.ofReal (‖ψ p.1‖ ^ 2)).toReal • val flux i j ψ p = ((4 * Real.pi : ℝ) : ℂ) * ∑ a, kern (orbital flux i) (orbital flux j) ψ a p := by
  rw [ENNReal.toReal_ofReal (by positivity), Complex.real_smul]
  simp only [val, kern]
  rw [mul_left_comm, Finset.mul_sum]
  congr 1
  refine Finset.sum_congr rfl fun a _ => ?_
  by_cases hz : ψ p.1 = 0
  · simp [hz]
  · have : ((‖ψ p.1‖ ^ 2 : ℝ) : ℂ) = conj (ψ p.1) * ψ p.1 := by
      rw [← Complex.normSq_eq_norm_sq, Complex.normSq_eq_conj_mul_self]
    rw [this]
    field_simp

theorem draw_law {ψ : (Fin n → ℝ × ℝ) → ℂ} (h : Regular ψ) : Measure.map (Prod.map id sampleSphere) ((law ψ).prod draws) =
    (ENNReal.ofReal (normSq ψ)⁻¹ * ENNReal.ofReal (1 / (4 * Real.pi))) • ((areaN n).prod area).withDensity fun p => ENNReal.ofReal (‖ψ p.1‖ ^ 2) := by
  haveI := law_prob h
  rw [← Measure.map_prod_map _ _ measurable_id measurable_sampleSphere, Measure.map_id, draws_map, law_prod ψ h.meas]

theorem integrable_val {flux i j : ℕ} (hi : i ≤ flux) (hj : j ≤ flux) {ψ : (Fin n → ℝ × ℝ) → ℂ} (h : Regular ψ) :
    Integrable (val flux i j ψ) (Measure.map (Prod.map id sampleSphere) ((law ψ).prod draws)) := by
  obtain ⟨C, hC⟩ := h.bound
  have hm := h.meas
  rw [draw_law h]
  refine Integrable.smul_measure ?_ (ENNReal.mul_ne_top ENNReal.ofReal_ne_top ENNReal.ofReal_ne_top)
  rw [integrable_withDensity_iff_integrable_smul' (by fun_prop) (Filter.Eventually.of_forall fun p => ENNReal.ofReal_lt_top)]
  simp only [val_kern]
  exact (integrable_finsetSum _ fun a _ => integrable_kern (measurable_orbital hi) (measurable_orbital hj) hm (bounded_orbital hi) (bounded_orbital hj) hC
    a).const_mul _

theorem integral_val {flux i j : ℕ} (hi : i ≤ flux) (hj : j ≤ flux) {ψ : (Fin n → ℝ × ℝ) → ℂ} (h : Regular ψ) :
    ∫ p, val flux i j ψ p ∂(Measure.map (Prod.map id sampleSphere) ((law ψ).prod draws)) = rdm (orbital flux) ψ i j := by
  obtain ⟨C, hC⟩ := h.bound
  have hm := h.meas
  have mi := measurable_orbital hi
  have mj := measurable_orbital hj
  have hpi := Real.pi_pos
  rw [draw_law h, integral_smul_measure,
    integral_withDensity_eq_integral_toReal_smul (by fun_prop) (Filter.Eventually.of_forall fun p => ENNReal.ofReal_lt_top)]
  simp only [val_kern]
  rw [integral_const_mul, integral_finsetSum _ fun a _ => integrable_kern mi mj hm (bounded_orbital hi) (bounded_orbital hj) hC a,
    ENNReal.toReal_mul, ENNReal.toReal_ofReal (inv_nonneg.2 h.pos.le), ENNReal.toReal_ofReal (by positivity), Complex.real_smul]
  unfold rdm
  rw [Finset.sum_congr rfl fun a _ => integral_prod _ (integrable_kern mi mj hm (bounded_orbital hi) (bounded_orbital hj) hC a)]
  have hn : (normSq ψ : ℂ) ≠ 0 := by exact_mod_cast h.pos.ne'
  have hp : (Real.pi : ℂ) ≠ 0 := by exact_mod_cast hpi.ne'
  simp only [kern]
  push_cast
  field_simp

theorem integrable_oneRdm {flux i j : ℕ} (hi : i ≤ flux) (hj : j ≤ flux) (f : (Fin n → ℝ × ℝ) → Option ℂ) (h : Regular fun R => amplitude (f R)) :
    Integrable (fun x : (Fin n → ℝ × ℝ) × (ℝ × ℝ) => oneRdm flux f x.1 x.2 i j) ((law fun R => amplitude (f R)).prod draws) := by
  simp only [oneRdm_val]
  exact (integrable_map_measure (g := val flux i j fun R => amplitude (f R)) (measurable_val hi hj h.meas).aestronglyMeasurable
    (measurable_id.prodMap measurable_sampleSphere).aemeasurable).1 (integrable_val hi hj h)

/-- C97: for every bounded wavefunction, the expectation of what the estimator returns, over a walker drawn from `|ψ|²` and the two uniform draws, is the
one-body density matrix in the orbitals of the code. -/
theorem c97_unbiased (flux i j : ℕ) (hi : i ≤ flux) (hj : j ≤ flux) (f : (Fin n → ℝ × ℝ) → Option ℂ) (h : Regular fun R => amplitude (f R)) :
    ∫ x, oneRdm flux f x.1 x.2 i j ∂((law fun R => amplitude (f R)).prod draws) = rdm (orbital flux) (fun R => amplitude (f R)) i j := by
  simp only [oneRdm_val]
  rw [← integral_map (f := val flux i j fun R => amplitude (f R)) (measurable_id.prodMap measurable_sampleSphere).aemeasurable
      (measurable_val hi hj h.meas).aestronglyMeasurable]
  exact integral_val hi hj h

/-- C97: the expectation of the final matrix, averaged over walkers and steps that may depend on each other in any way, provided that each walker has the
law `|ψ|²` and its draws are fresh. -/
theorem c97_digest (flux i j : ℕ) (hi : i ≤ flux) (hj : j ≤ flux) (f : (Fin n → ℝ × ℝ) → Option ℂ) (h : Regular fun R => amplitude (f R)) {Ω : Type}
    [MeasurableSpace Ω] (μ : Measure Ω) {S W : ℕ} (hS : 0 < S) (hW : 0 < W) (x : Fin S → Fin W → Ω → (Fin n → ℝ × ℝ) × (ℝ × ℝ))
    (hx : ∀ s w, AEMeasurable (x s w) μ) (hl : ∀ s w, Measure.map (x s w) μ = (law fun R => amplitude (f R)).prod draws) :
    ∫ ω, rdmDigest (fun s w => oneRdm flux f (x s w ω).1 (x s w ω).2 i j) ∂μ = rdm (orbital flux) (fun R => amplitude (f R)) i j := by
  have hI := integrable_oneRdm hi hj f h
  have hint : ∀ s w, Integrable (fun ω => oneRdm flux f (x s w ω).1 (x s w ω).2 i j) μ := fun s w =>
    (integrable_map_measure (g := fun p : (Fin n → ℝ × ℝ) × (ℝ × ℝ) => oneRdm flux f p.1 p.2 i j) (by rw [hl]; exact hI.aestronglyMeasurable) (hx s w)).1
      (by rw [hl]; exact hI)
  have hval : ∀ s w, ∫ ω, oneRdm flux f (x s w ω).1 (x s w ω).2 i j ∂μ = rdm (orbital flux) (fun R => amplitude (f R)) i j := fun s w => by
    rw [← integral_map (f := fun p : (Fin n → ℝ × ℝ) × (ℝ × ℝ) => oneRdm flux f p.1 p.2 i j) (hx s w) (by rw [hl]; exact hI.aestronglyMeasurable), hl]
    exact c97_unbiased flux i j hi hj f h
  have hS' : (S : ℂ) ≠ 0 := by exact_mod_cast hS.ne'
  have hW' : (W : ℂ) ≠ 0 := by exact_mod_cast hW.ne'
  unfold rdmDigest
  rw [integral_div, integral_finsetSum _ fun s _ => (integrable_finsetSum _ fun w _ => hint s w).div_const _]
  simp only [integral_div]
  rw [Finset.sum_congr rfl fun s _ => by rw [integral_finsetSum _ fun w _ => hint s w]]
  simp only [hval, Finset.sum_const, Finset.card_univ, Fintype.card_fin, nsmul_eq_mul]
  field_simp

/-! ### The lowest Landau level -/

/-- C97: the orbitals of the specification are orthonormal. -/
theorem c97_orthonormal (flux i j : ℕ) (hi : i ≤ flux) (hj : j ≤ flux) : ∫ e, conj (Y flux i e) * Y flux j e ∂area = if i = j then 1 else 0 :=
  overlap_Y hj hi

/-- C97: away from the poles the orbitals of the code are the monopole harmonics. -/
theorem c97_orbital (flux t : ℕ) (ht : t ≤ flux) (θ φ : ℝ) (h0 : 0 ≤ θ) (h1 : θ ≤ Real.pi) (hc : |Real.cos θ| ≤ 1 - 1e-4) :
    orbital flux t (θ, φ) = Y flux t (θ, φ) := by
  rw [orbital_eq ht, Y_eq, yPart_eq flux t ⟨h0, h1⟩, clip_of_mem]
  have := abs_le.1 hc
  exact ⟨by linarith [this.1], this.2⟩

section
variable {flux : ℕ} {ψ : (Fin n → ℝ × ℝ) → ℂ}

theorem bint {β : Type} [MeasurableSpace β] {μ : Measure β} [IsFiniteMeasure μ] {g : β → ℂ} (hm : Measurable g) {C : ℝ} (hC : ∀ b, ‖g b‖ ≤ C) : Integrable g μ :=
  Integrable.of_bound hm.aestronglyMeasurable C (Filter.Eventually.of_forall hC)

/-- The amplitude of orbital `j` for electron `a`. -/
noncomputable def coef (flux : ℕ) (ψ : (Fin n → ℝ × ℝ) → ℂ) (a : Fin n) (j : ℕ) (R : Fin n → ℝ × ℝ) : ℂ :=
  ∫ r, conj (Y flux j r) * ψ (Function.update R a r) ∂area

theorem coef_update (a : Fin n) (j : ℕ) (R : Fin n → ℝ × ℝ) (r : ℝ × ℝ) : coef flux ψ a j (Function.update R a r) = coef flux ψ a j R := by
  unfold coef
  simp only [Function.update_idem]

theorem expand (hL : LowestLevel flux ψ) (R : Fin n → ℝ × ℝ) (a : Fin n) (r : ℝ × ℝ) :
    ψ (Function.update R a r) = ∑ t ∈ Finset.range (flux + 1), coef flux ψ a t R * Y flux t r ∧
    ∀ j ≤ flux, ∫ r, conj (orbital flux j r) * ψ (Function.update R a r) ∂area = shrink flux j * coef flux ψ a j R := by
  obtain ⟨c, hc⟩ := hL R a
  have key : ∀ (χ : ℝ × ℝ → ℂ) (K : ℝ), Measurable χ → (∀ r, ‖χ r‖ ≤ K) →
      ∫ r, conj (χ r) * ψ (Function.update R a r) ∂area = ∑ t ∈ Finset.range (flux + 1), c t * ∫ r, conj (χ r) * Y flux t r ∂area := by
    intro χ K hχ hK
    have hK0 : 0 ≤ K := (norm_nonneg _).trans (hK (0, 0))
    simp only [hc, Finset.mul_sum]
    rw [integral_finsetSum]
    · refine Finset.sum_congr rfl fun t _ => ?_
      rw [← integral_const_mul]
      refine integral_congr_ae (Filter.Eventually.of_forall fun r => ?_)
      simp only
      ring
    · intro t ht
      refine bint (C := K * (‖c t‖ * Real.sqrt ((flux + 1) / (4 * Real.pi)))) ?_ fun r => ?_
      · exact (measurable_conj hχ).mul ((measurable_Y flux t).const_mul _)
      · rw [norm_mul, norm_mul, RCLike.norm_conj]
        exact mul_le_mul (hK r) (mul_le_mul_of_nonneg_left (bounded_Y (by have := Finset.mem_range.1 ht; omega) r) (norm_nonneg _)) (by positivity) hK0
  have hcoef : ∀ j ≤ flux, coef flux ψ a j R = c j := by
    intro j hj
    unfold coef
    rw [key (Y flux j) _ (measurable_Y flux j) (bounded_Y hj)]
    rw [Finset.sum_eq_single j]
    · rw [overlap_Y hj hj, if_pos rfl, mul_one]
    · intro t ht h
      rw [overlap_Y (by have := Finset.mem_range.1 ht; omega) hj, if_neg (Ne.symm h), mul_zero]
    · intro h; exact absurd (Finset.mem_range.2 (by omega)) h
  refine ⟨?_, fun j hj => ?_⟩
  · rw [hc]
    refine Finset.sum_congr rfl fun t ht => ?_
    rw [hcoef t (by have := Finset.mem_range.1 ht; omega)]
  · rw [key (orbital flux j) _ (measurable_orbital hj) (bounded_orbital hj), hcoef j hj]
    rw [Finset.sum_eq_single j]
    · rw [overlap_orbital hj hj, if_pos rfl, mul_comm]
    · intro t ht h
      rw [overlap_orbital (by have := Finset.mem_range.1 ht; omega) hj, if_neg (Ne.symm h), mul_zero]
    · intro h; exact absurd (Finset.mem_range.2 (by omega)) h

theorem measurable_coef (hm : Measurable ψ) (a : Fin n) (j : ℕ) : Measurable (coef flux ψ a j) := by
  unfold coef
  have : StronglyMeasurable fun p : (Fin n → ℝ × ℝ) × (ℝ × ℝ) => conj (Y flux j p.2) * ψ (Function.update p.1 a p.2) :=
    ((measurable_conj ((measurable_Y flux j).comp measurable_snd)).mul (hm.comp (measurable_update' a))).stronglyMeasurable
  exact this.integral_prod_right.measurable

theorem coef_bound {C : ℝ} (hC : ∀ R, ‖ψ R‖ ≤ C) (a : Fin n) {j : ℕ} (hj : j ≤ flux) (R : Fin n → ℝ × ℝ) :
    ‖coef flux ψ a j R‖ ≤ Real.sqrt ((flux + 1) / (4 * Real.pi)) * C * area.real univ := by
  unfold coef
  refine norm_integral_le_of_norm_le_const (Filter.Eventually.of_forall fun r => ?_)
  rw [norm_mul, RCLike.norm_conj]
  exact mul_le_mul (bounded_Y hj r) (hC _) (norm_nonneg _) (Real.sqrt_nonneg _)

/-- The two integrals of the density matrix, in terms of the amplitudes of the orbitals. -/
theorem rdm_coef (h : Regular ψ) (hL : LowestLevel flux ψ) (φ : ℕ → ℝ × ℝ → ℂ) (s : ℕ → ℝ) (hφm : ∀ t ≤ flux, Measurable (φ t))
    (hφb : ∀ t ≤ flux, ∀ r, ‖φ t r‖ ≤ Real.sqrt ((flux + 1) / (4 * Real.pi)))
    (hφ : ∀ R a, ∀ t ≤ flux, ∫ r, conj (φ t r) * ψ (Function.update R a r) ∂area = s t * coef flux ψ a t R) {i j : ℕ} (hi : i ≤ flux) (hj : j ≤ flux) :
    rdm φ ψ i j = s i * s j * ((∑ a, ∫ R, conj (coef flux ψ a i R) * coef flux ψ a j R ∂areaN n) / ((4 * Real.pi * normSq ψ : ℝ) : ℂ)) := by
  obtain ⟨C, hC⟩ := h.bound
  have hm := h.meas
  have hpi := Real.pi_pos
  have hn : (normSq ψ : ℂ) ≠ 0 := by exact_mod_cast h.pos.ne'
  have hp : (Real.pi : ℂ) ≠ 0 := by exact_mod_cast hpi.ne'
  set K := Real.sqrt (((flux : ℝ) + 1) / (4 * Real.pi)) with hK
  have hK0 : 0 ≤ K := Real.sqrt_nonneg _
  have hC0 : 0 ≤ C := (norm_nonneg _).trans (hC fun _ => (0, 0))
  have key : ∀ a, ∫ R, ∫ r, φ i (R a) * conj (φ j r) * conj (ψ R) * ψ (Function.update R a r) ∂area ∂areaN n =
      s i * s j * (∫ R, conj (coef flux ψ a i R) * coef flux ψ a j R ∂areaN n) / ((4 * Real.pi : ℝ) : ℂ) := by
    intro a
    have e1 : ∀ R, ∫ r, φ i (R a) * conj (φ j r) * conj (ψ R) * ψ (Function.update R a r) ∂area = φ i (R a) * conj (ψ R) * (s j * coef flux ψ a j R) := by
      intro R
      rw [← hφ R a j hj, ← integral_const_mul]
      refine integral_congr_ae (Filter.Eventually.of_forall fun r => ?_)
      simp only
      ring
    simp only [e1]
    have hF := resample a (fun R => φ i (R a) * conj (ψ R) * (s j * coef flux ψ a j R)) ?_ ?_
    · have e2 : ∀ R, ∫ r, φ i (Function.update R a r a) * conj (ψ (Function.update R a r)) * (s j * coef flux ψ a j (Function.update R a r)) ∂area =
          s i * s j * (conj (coef flux ψ a i R) * coef flux ψ a j R) := by
        intro R
        simp only [coef_update, Function.update_self]
        rw [integral_mul_const]
        have : ∫ r, φ i r * conj (ψ (Function.update R a r)) ∂area = conj (s i * coef flux ψ a i R) := by
          rw [← hφ R a i hi, ← integral_conj]
          refine integral_congr_ae (Filter.Eventually.of_forall fun r => ?_)
          simp
        rw [this, map_mul, Complex.conj_ofReal]
        ring
      simp only [e2] at hF
      rw [integral_const_mul] at hF
      rw [hF]
      push_cast
      rw [mul_div_cancel_left₀ _ (mul_ne_zero (by norm_num) hp)]
    · refine Measurable.mul (Measurable.mul ((hφm i hi).comp (measurable_pi_apply a)) (measurable_conj hm)) ((measurable_coef hm a j).const_mul _)
    · refine ⟨K * C * (|s j| * (K * C * area.real univ)), fun R => ?_⟩
      rw [norm_mul, norm_mul, norm_mul, RCLike.norm_conj, Complex.norm_real, Real.norm_eq_abs]
      refine mul_le_mul (mul_le_mul (hφb i hi _) (hC _) (norm_nonneg _) hK0) (mul_le_mul_of_nonneg_left (coef_bound hC a hj R) (abs_nonneg _)) (by positivity) (by positivity)
  unfold rdm
  rw [Finset.sum_congr rfl fun a _ => key a, ← Finset.sum_div, ← Finset.mul_sum]
  push_cast
  field_simp

theorem rdm_Y (h : Regular ψ) (hL : LowestLevel flux ψ) {i j : ℕ} (hi : i ≤ flux) (hj : j ≤ flux) :
    rdm (Y flux) ψ i j = (∑ a, ∫ R, conj (coef flux ψ a i R) * coef flux ψ a j R ∂areaN n) / ((4 * Real.pi * normSq ψ : ℝ) : ℂ) := by
  have := rdm_coef h hL (Y flux) (fun _ => 1) (fun t _ => measurable_Y flux t) (fun t ht => bounded_Y ht) (fun R a t ht => by unfold coef; simp) hi hj
  simpa using this

/-- C97: for a wavefunction of the lowest Landau level, the density matrix in the orbitals of the code is the density matrix in the monopole harmonics up to
factors within `1e-4 (flux + 1)` of one. -/
theorem c97_lowest_partial (flux : ℕ) : ∃ s : ℕ → ℝ, (∀ t ≤ flux, |s t - 1| ≤ 1e-4 * (flux + 1)) ∧
    ∀ {n : ℕ} (ψ : (Fin n → ℝ × ℝ) → ℂ), Regular ψ → LowestLevel flux ψ → ∀ i ≤ flux, ∀ j ≤ flux,
      rdm (orbital flux) ψ i j = s i * s j * rdm (Y flux) ψ i j := by
  refine ⟨shrink flux, fun t ht => shrink_bound ht, fun {n} ψ h hL i hi j hj => ?_⟩
  rw [rdm_Y h hL hi hj]
  exact rdm_coef h hL (orbital flux) (shrink flux) (fun t ht => measurable_orbital ht) (fun t ht => bounded_orbital ht)
    (fun R a t ht => (expand hL R a (0, 0)).2 t ht) hi hj

/-- C97: the density matrix is Hermitian, its diagonal entries are not negative. -/
theorem c97_hermitian (flux : ℕ) (ψ : (Fin n → ℝ × ℝ) → ℂ) (h : Regular ψ) (hL : LowestLevel flux ψ) (i j : ℕ) (hi : i ≤ flux) (hj : j ≤ flux) :
    rdm (Y flux) ψ j i = conj (rdm (Y flux) ψ i j) ∧ ∃ x : ℝ, 0 ≤ x ∧ rdm (Y flux) ψ i i = x := by
  have hpi := Real.pi_pos
  constructor
  · rw [rdm_Y h hL hj hi, rdm_Y h hL hi hj, map_div₀, Complex.conj_ofReal, map_sum]
    congr 1
    refine Finset.sum_congr rfl fun a _ => ?_
    rw [← integral_conj]
    refine integral_congr_ae (Filter.Eventually.of_forall fun R => ?_)
    simp only [map_mul, Complex.conj_conj]
    ring
  · refine ⟨(∑ a, ∫ R, ‖coef flux ψ a i R‖ ^ 2 ∂areaN n) / (4 * Real.pi * normSq ψ), ?_, ?_⟩
    · refine div_nonneg (Finset.sum_nonneg fun a _ => integral_nonneg fun R => by positivity) (by have := h.pos; positivity)
    · rw [rdm_Y h hL hi hi]
      push_cast
      congr 1
      refine Finset.sum_congr rfl fun a _ => ?_
      rw [← integral_complex_ofReal]
      refine integral_congr_ae (Filter.Eventually.of_forall fun R => ?_)
      simp only
      rw [← Complex.normSq_eq_norm_sq, Complex.normSq_eq_conj_mul_self]

/-- C97: the trace of the density matrix of a wavefunction of the lowest Landau level is the number of electrons. -/
theorem c97_trace (flux : ℕ) (ψ : (Fin n → ℝ × ℝ) → ℂ) (h : Regular ψ) (hL : LowestLevel flux ψ) : rdmTrace flux (rdm (Y flux) ψ) = n := by
  obtain ⟨C, hC⟩ := h.bound
  have hm := h.meas
  have hn : (normSq ψ : ℂ) ≠ 0 := by exact_mod_cast h.pos.ne'
  have hC0 : 0 ≤ C := (norm_nonneg _).trans (hC fun _ => (0, 0))
  unfold rdmTrace rdm
  rw [← Finset.sum_div, Finset.sum_comm]
  have key : ∀ a : Fin n, ∑ i ∈ Finset.range (flux + 1), ∫ R, ∫ r, Y flux i (R a) * conj (Y flux i r) * conj (ψ R) * ψ (Function.update R a r) ∂area ∂areaN n = normSq ψ := by
    intro a
    have e1 : ∀ i R, ∫ r, Y flux i (R a) * conj (Y flux i r) * conj (ψ R) * ψ (Function.update R a r) ∂area = conj (ψ R) * (coef flux ψ a i R * Y flux i (R a)) := by
      intro i R
      rw [show conj (ψ R) * (coef flux ψ a i R * Y flux i (R a)) = Y flux i (R a) * conj (ψ R) * coef flux ψ a i R by ring]
      unfold coef
      rw [← integral_const_mul]
      refine integral_congr_ae (Filter.Eventually.of_forall fun r => ?_)
      simp only
      ring
    simp only [e1]
    rw [← integral_finsetSum]
    · have e2 : ∀ R, ∑ i ∈ Finset.range (flux + 1), conj (ψ R) * (coef flux ψ a i R * Y flux i (R a)) = ((‖ψ R‖ ^ 2 : ℝ) : ℂ) := by
        intro R
        rw [← Finset.mul_sum, ← (expand hL R a (R a)).1, Function.update_eq_self, ← Complex.normSq_eq_norm_sq, Complex.normSq_eq_conj_mul_self]
      simp only [e2]
      exact integral_complex_ofReal
    · intro i hi
      have hi' : i ≤ flux := by have := Finset.mem_range.1 hi; omega
      refine bint (C := C * (Real.sqrt ((flux + 1) / (4 * Real.pi)) * C * area.real univ * Real.sqrt ((flux + 1) / (4 * Real.pi)))) ?_ fun R => ?_
      · exact (measurable_conj hm).mul ((measurable_coef hm a i).mul ((measurable_Y flux i).comp (measurable_pi_apply a)))
      · rw [norm_mul, norm_mul, RCLike.norm_conj]
        exact mul_le_mul (hC _) (mul_le_mul (coef_bound hC a hi' R) (bounded_Y hi' _) (norm_nonneg _) (by positivity)) (by positivity) hC0
  rw [Finset.sum_congr rfl fun a _ => key a]
  simp only [Finset.sum_const, Finset.card_univ, Fintype.card_fin, nsmul_eq_mul]
  field_simp

/-- C97: the expected trace of the estimate for a wavefunction of the lowest Landau level is the number of electrons up to the effect of the clipping at the
poles. -/
theorem c97_trace_partial (flux : ℕ) (ψ : (Fin n → ℝ × ℝ) → ℂ) (h : Regular ψ) (hL : LowestLevel flux ψ) :
    ‖rdmTrace flux (rdm (orbital flux) ψ) - n‖ ≤ n * (2 * (1e-4 * (flux + 1)) + (1e-4 * (flux + 1)) ^ 2) := by
  obtain ⟨s, hs, hr⟩ := c97_lowest_partial flux
  set ε : ℝ := 1e-4 * (flux + 1) with hε
  have hε0 : 0 ≤ ε := by positivity
  choose! x hx0 hx using fun i (hi : i ≤ flux) => (c97_hermitian flux ψ h hL i i hi hi).2
  have htr := c97_trace flux ψ h hL
  unfold rdmTrace at htr ⊢
  have e1 : ∑ i ∈ Finset.range (flux + 1), rdm (Y flux) ψ i i = ((∑ i ∈ Finset.range (flux + 1), x i : ℝ) : ℂ) := by
    push_cast
    exact Finset.sum_congr rfl fun i hi => hx i (by have := Finset.mem_range.1 hi; omega)
  rw [e1] at htr
  have htr' : ∑ i ∈ Finset.range (flux + 1), x i = n := by exact_mod_cast htr
  have e2 : ∑ i ∈ Finset.range (flux + 1), rdm (orbital flux) ψ i i - n = ((∑ i ∈ Finset.range (flux + 1), (s i ^ 2 - 1) * x i : ℝ) : ℂ) := by
    rw [← htr]
    push_cast
    rw [← Finset.sum_sub_distrib]
    refine Finset.sum_congr rfl fun i hi => ?_
    have hi' : i ≤ flux := by have := Finset.mem_range.1 hi; omega
    rw [hr ψ h hL i hi' i hi', hx i hi']
    ring
  rw [e2, Complex.norm_real, Real.norm_eq_abs]
  calc |∑ i ∈ Finset.range (flux + 1), (s i ^ 2 - 1) * x i| ≤ ∑ i ∈ Finset.range (flux + 1), |(s i ^ 2 - 1) * x i| := Finset.abs_sum_le_sum_abs _ _
    _ ≤ ∑ i ∈ Finset.range (flux + 1), (2 * ε + ε ^ 2) * x i := by
      refine Finset.sum_le_sum fun i hi => ?_
      have hi' : i ≤ flux := by have := Finset.mem_range.1 hi; omega
      rw [abs_mul, abs_of_nonneg (hx0 i hi')]
      refine mul_le_mul_of_nonneg_right ?_ (hx0 i hi')
      have h1 := hs i hi'
      rw [show s i ^ 2 - 1 = 2 * (s i - 1) + (s i - 1) ^ 2 by ring]
      refine (abs_add_le _ _).trans ?_
      rw [abs_mul, abs_pow, abs_of_pos (by norm_num : (0 : ℝ) < 2)]
      exact add_le_add (mul_le_mul_of_nonneg_left h1 (by norm_num)) (pow_le_pow_left₀ (abs_nonneg _) h1 2)
    _ = n * (2 * ε + ε ^ 2) := by rw [← Finset.mul_sum, htr', mul_comm]

end

/-! ### Concrete cases -/

/-- A product of orbitals, one per electron. -/
noncomputable def product (flux : ℕ) (t : Fin n → ℕ) (R : Fin n → ℝ × ℝ) : ℂ := ∏ a, Y flux (t a) (R a)

/-- The logarithm of a wavefunction. -/
noncomputable def logOf (ψ : (Fin n → ℝ × ℝ) → ℂ) (R : Fin n → ℝ × ℝ) : Option ℂ := if ψ R = 0 then none else some (Complex.log (ψ R))

theorem amplitude_logOf (ψ : (Fin n → ℝ × ℝ) → ℂ) : (fun R => amplitude (logOf ψ R)) = ψ := by
  funext R
  unfold logOf
  split
  · next h => simp [amplitude, h]
  · next h => simp [amplitude, Complex.exp_log h]

theorem product_regular {flux : ℕ} (t : Fin n → ℕ) (ht : ∀ a, t a ≤ flux) : Regular (product flux t) := by
  refine ⟨?_, ⟨∏ a : Fin n, Real.sqrt ((flux + 1) / (4 * Real.pi)), fun R => ?_⟩, ?_⟩
  · unfold product
    exact Finset.measurable_prod _ fun a _ => (measurable_Y flux _).comp (measurable_pi_apply a)
  · unfold product
    rw [norm_prod]
    exact Finset.prod_le_prod (fun a _ => norm_nonneg _) fun a _ => bounded_Y (ht a) _
  · have : normSq (product flux t) = 1 := by
      unfold normSq product areaN
      simp only [norm_prod, ← Finset.prod_pow]
      rw [integral_fintype_prod_eq_prod (fun a (r : ℝ × ℝ) => ‖Y flux (t a) r‖ ^ 2)]
      refine Finset.prod_eq_one fun a _ => ?_
      have h := overlap_Y (ht a) (ht a)
      rw [if_pos rfl] at h
      have e : ∀ r, conj (Y flux (t a) r) * Y flux (t a) r = ((‖Y flux (t a) r‖ ^ 2 : ℝ) : ℂ) := fun r => by
        rw [← Complex.normSq_eq_norm_sq, Complex.normSq_eq_conj_mul_self]
      simp only [e] at h
      rw [integral_complex_ofReal] at h
      exact_mod_cast h
    rw [this]; norm_num

theorem product_lowest {flux : ℕ} (t : Fin n → ℕ) (ht : ∀ a, t a ≤ flux) : LowestLevel flux (product flux t) := by
  intro R a
  refine ⟨fun k => if k = t a then ∏ b ∈ Finset.univ.erase a, Y flux (t b) (R b) else 0, fun r => ?_⟩
  rw [Finset.sum_eq_single (t a)]
  · beta_reduce
    rw [if_pos rfl]
    unfold product
    rw [← Finset.mul_prod_erase _ _ (Finset.mem_univ a), Function.update_self, mul_comm]
    congr 1
    refine Finset.prod_congr rfl fun b hb => ?_
    rw [Function.update_of_ne (Finset.ne_of_mem_erase hb)]
  · intro k _ hk
    beta_reduce
    rw [if_neg hk, zero_mul]
  · intro h; exact absurd (Finset.mem_range.2 (by have := ht a; omega)) h

/-- Three electrons in three orbitals satisfy the hypotheses of the theorems. -/
example : Regular (fun R => amplitude (logOf (product 4 ![0, 1, 3]) R)) ∧ LowestLevel 4 (product 4 ![0, 1, 3]) := by
  rw [amplitude_logOf]
  have : ∀ a : Fin 3, (![0, 1, 3] : Fin 3 → ℕ) a ≤ 4 := by decide
  exact ⟨product_regular _ this, product_lowest _ this⟩

theorem shrink_two_one : 1 < shrink 2 1 := by
  have hpi := Real.pi_pos
  have ht : (1 : ℕ) ≤ 2 := by norm_num
  let d : ℝ → ℝ := fun x => dens 2 1 x
  have dv : ∀ x, dens 2 1 x = 3 / (8 * Real.pi) * (1 - x ^ 2) := by
    intro x
    unfold dens
    norm_num
    field_simp
    ring
  have asq : ∀ x y, amp 2 1 x * amp 2 1 y = Real.sqrt (dens 2 1 x) * Real.sqrt (dens 2 1 y) := by
    intro x y
    unfold amp
    norm_num
  let g : ℝ → ℝ := fun x => amp 2 1 (clip (-1 + 1e-4) (1 - 1e-4) x) * amp 2 1 x - amp 2 1 x * amp 2 1 x
  have hg : Continuous g := ((((continuous_amp 2 1).comp continuous_clip).mul (continuous_amp 2 1)).sub ((continuous_amp 2 1).mul (continuous_amp 2 1)))
  have e1 : ∫ θ, amp 2 1 (clip (-1 + 1e-4) (1 - 1e-4) (Real.cos θ)) * yPart 2 1 θ ∂polarM =
      ∫ x in Icc (-1 : ℝ) 1, amp 2 1 (clip (-1 + 1e-4) (1 - 1e-4) x) * amp 2 1 x := by
    rw [← integral_polar (fun x => amp 2 1 (clip (-1 + 1e-4) (1 - 1e-4) x) * amp 2 1 x)]
    · refine integral_congr_ae (ae_polar.mono fun θ h => ?_)
      simp only [yPart_eq 2 1 h]
    · exact ((((continuous_amp 2 1).comp continuous_clip).mul (continuous_amp 2 1)).comp Real.continuous_cos).aestronglyMeasurable
  have e3 : 2 * Real.pi * ∫ x in Icc (-1 : ℝ) 1, amp 2 1 x * amp 2 1 x = (1 : ℝ) := by
    rw [setIntegral_congr_fun measurableSet_Icc (g := dens 2 1) fun x hx => by rw [← amp_sq 2 1 hx, sq], dens_integral ht]
    field_simp
  have mono : ∀ x ∈ Icc (-1 : ℝ) 1, dens 2 1 x ≤ dens 2 1 (clip (-1 + 1e-4) (1 - 1e-4) x) := by
    intro x hx
    rw [dv, dv]
    refine mul_le_mul_of_nonneg_left ?_ (by positivity)
    have : |clip (-1 + 1e-4) (1 - 1e-4) x| ≤ |x| := by
      unfold clip
      rcases le_total x (-1 + 1e-4) with h | h
      · rw [max_eq_left h, min_eq_right (by norm_num)]
        rw [abs_of_nonpos (by norm_num), abs_of_nonpos (h.trans (by norm_num))]
        linarith
      · rw [max_eq_right h]
        rcases le_total x (1 - 1e-4) with h' | h'
        · rw [min_eq_right h']
        · rw [min_eq_left h', abs_of_nonneg (by norm_num), abs_of_nonneg (le_trans (by norm_num) h')]
          exact h'
    have := sq_le_sq.2 this
    linarith
  have g0 : ∀ x ∈ Icc (-1 : ℝ) 1, 0 ≤ g x := by
    intro x hx
    simp only [g, asq]
    rw [← sub_mul]
    exact mul_nonneg (sub_nonneg.2 (Real.sqrt_le_sqrt (mono x hx))) (Real.sqrt_nonneg _)
  have gpos : ∀ x ∈ Ioo (1 - 1e-4 : ℝ) 1, 0 < g x := by
    intro x hx
    have hc : clip (-1 + 1e-4) (1 - 1e-4) x = 1 - 1e-4 := by
      unfold clip
      rw [max_eq_right (le_trans (by norm_num) hx.1.le), min_eq_left hx.1.le]
    have h1 : (0 : ℝ) < 1 - 1e-4 := by norm_num
    have hd : 0 < dens 2 1 x := by
      rw [dv]
      have : 0 < 1 - x ^ 2 := by nlinarith [hx.1, hx.2]
      positivity
    simp only [g, asq]
    rw [← sub_mul, hc]
    refine mul_pos (sub_pos.2 (Real.sqrt_lt_sqrt hd.le ?_)) (Real.sqrt_pos.2 hd)
    rw [dv, dv]
    refine mul_lt_mul_of_pos_left ?_ (by positivity)
    have := mul_self_lt_mul_self h1.le hx.1
    nlinarith
  have ipos : 0 < ∫ x in Icc (-1 : ℝ) 1, g x := by
    have ii : ∀ a b : ℝ, IntervalIntegrable g volume a b := fun a b => hg.intervalIntegrable a b
    rw [integral_Icc_eq_integral_Ioc, ← intervalIntegral.integral_of_le (by norm_num),
      ← intervalIntegral.integral_add_adjacent_intervals (ii (-1) (1 - 1e-4)) (ii _ 1)]
    refine add_pos_of_nonneg_of_pos ?_ ?_
    · exact intervalIntegral.integral_nonneg (by norm_num) fun x hx => g0 x ⟨hx.1, hx.2.trans (by norm_num)⟩
    · exact intervalIntegral.intervalIntegral_pos_of_pos_on (ii _ _) gpos (by norm_num)
  have e2 : shrink 2 1 - 1 = 2 * Real.pi * ∫ x in Icc (-1 : ℝ) 1, g x := by
    unfold shrink
    rw [e1]
    refine (congrArg (fun z => 2 * Real.pi * (∫ x in Icc (-1 : ℝ) 1, amp 2 1 (clip (-1 + 1e-4) (1 - 1e-4) x) * amp 2 1 x) - z) e3.symm).trans ?_
    rw [← mul_sub, ← integral_sub]
    · exact (((continuous_amp 2 1).comp continuous_clip).mul (continuous_amp 2 1)).continuousOn.integrableOn_Icc
    · exact ((continuous_amp 2 1).mul (continuous_amp 2 1)).continuousOn.integrableOn_Icc
  have : 0 < shrink 2 1 - 1 := by rw [e2]; positivity
  linarith

/-- C97 does not hold exactly: for one electron in the middle orbital of `flux = 2` the expected trace is greater than one. -/
theorem c97_trace_biased : ∃ x : ℝ, 1 < x ∧ rdmTrace 2 (rdm (orbital 2) (product (n := 1) 2 fun _ => 1)) = x := by
  have ht : ∀ a : Fin 1, (fun _ : Fin 1 => 1) a ≤ 2 := fun _ => by norm_num
  have h := product_regular (flux := 2) (fun _ : Fin 1 => 1) ht
  have hL := product_lowest (flux := 2) (fun _ : Fin 1 => 1) ht
  have hd : ∀ i ≤ 2, i ≠ 1 → rdm (Y 2) (product (n := 1) 2 fun _ => 1) i i = 0 := by
    intro i hi h1
    rw [rdm_Y h hL hi hi]
    have : ∀ a R, coef 2 (product (n := 1) 2 fun _ => 1) a i R = 0 := by
      intro a R
      unfold coef product
      have : ∀ r, ∏ b : Fin 1, Y 2 1 (Function.update R a r b) = Y 2 1 r := by
        intro r
        have ha : a = 0 := Subsingleton.elim _ _
        subst ha
        simp
      simp only [this]
      rw [overlap_Y (by norm_num) hi, if_neg h1]
    simp [this]
  have htr := c97_trace 2 _ h hL
  have hl : ∀ i ≤ 2, rdm (orbital 2) (product (n := 1) 2 fun _ => 1) i i = shrink 2 i * shrink 2 i * rdm (Y 2) (product (n := 1) 2 fun _ => 1) i i := by
    intro i hi
    rw [rdm_Y h hL hi hi]
    exact rdm_coef h hL (orbital 2) (shrink 2) (fun t ht => measurable_orbital ht) (fun t ht => bounded_orbital ht)
      (fun R a t ht => (expand hL R a (0, 0)).2 t ht) hi hi
  unfold rdmTrace at htr ⊢
  rw [Finset.sum_range_succ, Finset.sum_range_succ, Finset.sum_range_one, hd 0 (by norm_num) (by norm_num), hd 2 (by norm_num) (by norm_num)] at htr
  simp only [zero_add, add_zero, Nat.cast_one] at htr
  refine ⟨shrink 2 1 * shrink 2 1, by nlinarith [shrink_two_one], ?_⟩
  rw [Finset.sum_range_succ, Finset.sum_range_succ, Finset.sum_range_one, hl 0 (by norm_num), hl 1 (by norm_num), hl 2 (by norm_num),
    hd 0 (by norm_num) (by norm_num), hd 2 (by norm_num) (by norm_num), htr]
  push_cast
  ring

end Jaqmc.HallStats.Props
