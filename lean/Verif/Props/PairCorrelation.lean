import Verif.Spec.PairCorrelation
import Verif.Lemmas.SphereArea
import Verif.Lemmas.DmcSample
import Verif.Props.Density
/-! C96: the pair correlation estimator on the Haldane sphere. -/
namespace Jaqmc.HallStats.Props
open MeasureTheory Set Jaqmc.HallStats.Spec Jaqmc.Density.Spec
open scoped BigOperators ENNReal Classical

variable {n : ℕ}

theorem xyz_point (e : ℝ × ℝ) (k : Fin 3) : xyz e k = point e k := rfl

theorem cos12_inner (e f : ℝ × ℝ) : cos12 e f = inner ℝ (point e) (point f) := by
  rw [PiLp.inner_apply]
  unfold cos12
  refine Finset.sum_congr rfl fun k _ => ?_
  rw [xyz_point, xyz_point]
  simp [mul_comm]

theorem norm_point (e : ℝ × ℝ) : ‖point e‖ = 1 := by
  rw [EuclideanSpace.norm_eq, Real.sqrt_eq_one]
  simp only [Real.norm_eq_abs, sq_abs, Fin.sum_univ_three, ← xyz_point, xyz]
  simp
  have h1 := Real.sin_sq_add_cos_sq e.1
  have h2 := Real.sin_sq_add_cos_sq e.2
  linear_combination (Real.sin e.1 ^ 2) * h2 + h1

/-- C96: the angle the estimator computes is the geodesic angle. -/
theorem c96_angle (e f : ℝ × ℝ) : theta12 e f = geodesic e f := by
  unfold theta12 geodesic InnerProductGeometry.angle
  rw [norm_point, norm_point, mul_one, div_one, cos12_inner]
  congr 1
  have h := abs_real_inner_le_norm (point e) (point f)
  rw [norm_point, norm_point, mul_one, abs_le] at h
  unfold clip
  rw [max_eq_right h.1, min_eq_right h.2]

theorem whist_eq {bins : ℕ} (hb : 0 < bins) (samples : List (ℝ × ℝ)) {k : ℕ} (hk : k < bins) :
    whist (Density.edges bins (0, Real.pi)) samples k = (samples.map fun s => if Cell 0 Real.pi bins k s.1 then s.2 else 0).sum := by
  have hs := Density.Props.edges_sorted (bins := bins) (R := (0, Real.pi)) hb Real.pi_pos
  unfold whist
  induction samples with
  | nil => simp
  | cons s l ih =>
    have h1 := Stats.Props.binIndices_iff [Density.edges bins (0, Real.pi)] (by simpa using hs) [s.1] rfl [k] rfl (by
      simp only [List.zip_cons_cons, List.zip_nil_left, List.mem_singleton, forall_eq]
      rw [Density.Props.edges_length]
      omega)
    have h2 : Stats.binIndex (Density.edges bins (0, Real.pi)) s.1 = k + 1 ↔ Cell 0 Real.pi bins k s.1 := by
      rw [← Density.Props.inBin_edges (R := (0, Real.pi)) hb]
      simpa [Stats.binIndices, Stats.Spec.InBins] using h1
    rw [List.filter_cons, List.map_cons, List.sum_cons, ← ih]
    by_cases h : Cell 0 Real.pi bins k s.1
    · simp [h2.2 h, h]
    · have : ¬ Stats.binIndex (Density.edges bins (0, Real.pi)) s.1 = k + 1 := fun hc => h (h2.1 hc)
      simp [this, h]

theorem sum_triu (F : Fin n → Fin n → ℝ) : ((triuIndices n).map fun p => F p.1 p.2).sum = ∑ i, ∑ j, if i < j then F i j else 0 := by
  unfold triuIndices
  rw [List.map_flatMap]
  have : ∀ l : List (Fin n), (l.flatMap fun i => (((List.finRange n).filter fun j => i < j).map fun j => (i, j)).map fun p : Fin n × Fin n => F p.1 p.2).sum =
      (l.map fun i => ∑ j, if i < j then F i j else 0).sum := by
    intro l
    induction l with
    | nil => simp
    | cons i l ih =>
      rw [List.flatMap_cons, List.sum_append, ih, List.map_cons, List.sum_cons]
      congr 1
      rw [List.map_map]
      have e : ∀ m : List (Fin n), (((m.filter fun j => i < j).map ((fun p : Fin n × Fin n => F p.1 p.2) ∘ fun j => (i, j))).sum : ℝ) =
          (m.map fun j => if i < j then F i j else 0).sum := by
        intro m
        induction m with
        | nil => simp
        | cons j m ih => by_cases h : i < j <;> simp [h, ih]
      rw [e, Fin.sum_univ_def]
  rw [this, Fin.sum_univ_def]

/-- The contribution of one pair to a bin. -/
noncomputable def pairTerm (bins k : ℕ) (θ : ℝ) : ℝ := if Cell 0 Real.pi bins k θ then 1 / Real.sin θ else 0

/-- C96: one step adds, for every walker and every pair of electrons `i < j` whose geodesic angle is in the cell, `1/sin θ_ij` times the normalisation. -/
theorem c96_step (bins : ℕ) (hb : 0 < bins) (batch : List (Fin n → ℝ × ℝ)) (k : ℕ) (hk : k < bins) :
    pairIncrement bins batch k = 4 * bins / (batch.length * (n : ℝ) ^ 2 * Real.pi) *
      (batch.map fun e => ∑ i, ∑ j, if i < j then (if Cell 0 Real.pi bins k (geodesic (e i) (e j)) then 1 / Real.sin (geodesic (e i) (e j)) else 0) else 0).sum := by
  unfold pairIncrement
  rw [whist_eq hb _ hk, List.map_map, List.map_flatMap]
  have : ∀ l : List (Fin n → ℝ × ℝ), (l.flatMap fun e => ((triuIndices n).map fun p => theta12 (e p.1) (e p.2)).map
      ((fun s : ℝ × ℝ => if Cell 0 Real.pi bins k s.1 then s.2 else 0) ∘ fun t => (t, 1 / Real.sin t))).sum =
      (l.map fun e => ∑ i, ∑ j, if i < j then (if Cell 0 Real.pi bins k (geodesic (e i) (e j)) then 1 / Real.sin (geodesic (e i) (e j)) else 0) else 0).sum := by
    intro l
    induction l with
    | nil => simp
    | cons e l ih =>
      rw [List.flatMap_cons, List.sum_append, ih, List.map_cons, List.sum_cons]
      congr 1
      rw [List.map_map, ← sum_triu]
      simp only [Function.comp_def, c96_angle]
  rw [this]
  ring

/-- C96: the state after any number of steps is the sum of the increments. -/
theorem c96_state (bins : ℕ) (steps : List (List (Fin n → ℝ × ℝ))) (k : ℕ) : pairState bins steps k = (steps.map fun b => pairIncrement bins b k).sum := by
  unfold pairState
  have : ∀ (l : List (List (Fin n → ℝ × ℝ))) (s : ℝ), l.foldl (fun s b => s + pairIncrement bins b k) s = s + (l.map fun b => pairIncrement bins b k).sum := by
    intro l
    induction l with
    | nil => simp
    | cons b l ih => intro s; rw [List.foldl_cons, ih, List.map_cons, List.sum_cons, add_assoc]
  rw [this, zero_add]

/-! ### Expectation -/

theorem cell_ae {bins k : ℕ} (hb : 0 < bins) (hk : k < bins) :
    ∀ᵐ θ ∂(volume.restrict (Icc 0 Real.pi)), (Cell 0 Real.pi bins k θ ↔ θ ∈ Ioc (k * (Real.pi / bins)) ((k + 1) * (Real.pi / bins))) := by
  have h1 : ∀ᵐ θ : ℝ, θ ≠ k * (Real.pi / bins) := by simp [ae_iff, measure_singleton]
  have h2 : ∀ᵐ θ : ℝ, θ ≠ (k + 1) * (Real.pi / bins) := by simp [ae_iff, measure_singleton]
  have h3 : ∀ᵐ θ : ℝ, θ ≠ Real.pi := by simp [ae_iff, measure_singleton]
  refine ae_restrict_of_ae ?_
  filter_upwards [h1, h2, h3] with θ a b c
  unfold Cell
  simp only [sub_zero, zero_add, mem_Ioc]
  constructor
  · rintro ⟨_, h, h' | h'⟩
    · exact ⟨lt_of_le_of_ne h (Ne.symm a), h'.le⟩
    · exact absurd h'.1 c
  · rintro ⟨h, h'⟩
    exact ⟨hk, h.le, Or.inl (lt_of_le_of_ne h' b)⟩

theorem measurable_geodesic (i j : Fin n) : Measurable fun R : Fin n → ℝ × ℝ => geodesic (R i) (R j) := by
  simp only [← c96_angle]
  unfold theta12 clip cos12 xyz
  simp only [Fin.sum_univ_three]
  refine measurable_arccos.comp (measurable_const.min (measurable_const.max ?_))
  simp
  fun_prop

theorem measurable_pairTerm (bins k : ℕ) : Measurable (pairTerm bins k) := by
  unfold pairTerm
  refine Measurable.ite ?_ (by fun_prop) measurable_const
  unfold Cell
  simp only [sub_zero, zero_add]
  have : {θ : ℝ | k < bins ∧ (k : ℝ) * (Real.pi / bins) ≤ θ ∧ (θ < ((k : ℝ) + 1) * (Real.pi / bins) ∨ θ = Real.pi ∧ k + 1 = bins)} =
      {_θ : ℝ | k < bins} ∩ (Ici ((k : ℝ) * (Real.pi / bins)) ∩ (Iio (((k : ℝ) + 1) * (Real.pi / bins)) ∪ ({Real.pi} ∩ {_θ : ℝ | k + 1 = bins}))) := by
    ext θ; rfl
  rw [this]
  exact (MeasurableSet.const _).inter (measurableSet_Ici.inter (measurableSet_Iio.union ((measurableSet_singleton _).inter (MeasurableSet.const _))))

theorem pairTerm_integral {P : Measure (Fin n → ℝ × ℝ)} {i j : Fin n} {g : ℝ → ℝ} (h : HasPairDensity P i j g) {bins k : ℕ} (hb : 0 < bins) (hk : k < bins) :
    Integrable (fun R => pairTerm bins k (geodesic (R i) (R j))) P ∧
      ∫ R, pairTerm bins k (geodesic (R i) (R j)) ∂P = cellMean bins k g * (Real.pi / (2 * bins)) := by
  have hpi := Real.pi_pos
  have hb' : (0 : ℝ) < bins := by exact_mod_cast hb
  have hm := h.meas
  have hge : ∀ᵐ θ ∂(volume.restrict (Icc 0 Real.pi)), (ENNReal.ofReal (g θ * Real.sin θ / 2)).toReal • pairTerm bins k θ =
      (Ioc (k * (Real.pi / bins)) ((k + 1) * (Real.pi / bins))).indicator (fun θ => g θ / 2) θ := by
    have h0 : ∀ᵐ θ : ℝ ∂(volume.restrict (Icc 0 Real.pi)), θ ≠ 0 := ae_restrict_of_ae (by simp [ae_iff, measure_singleton])
    have h1 : ∀ᵐ θ : ℝ ∂(volume.restrict (Icc 0 Real.pi)), θ ≠ Real.pi := ae_restrict_of_ae (by simp [ae_iff, measure_singleton])
    filter_upwards [cell_ae hb hk, ae_restrict_mem measurableSet_Icc, h0, h1] with θ hc hθ a b
    have hs : 0 < Real.sin θ := Real.sin_pos_of_pos_of_lt_pi (lt_of_le_of_ne hθ.1 (Ne.symm a)) (lt_of_le_of_ne hθ.2 b)
    rw [ENNReal.toReal_ofReal (by have := h.nonneg θ; positivity), smul_eq_mul]
    unfold pairTerm
    by_cases hh : Cell 0 Real.pi bins k θ
    · rw [if_pos hh, indicator_of_mem (hc.1 hh)]
      field_simp
    · rw [if_neg hh, indicator_of_notMem (fun x => hh (hc.2 x)), mul_zero]
  have hsub : Ioc ((k : ℝ) * (Real.pi / bins)) ((k + 1) * (Real.pi / bins)) ⊆ Icc 0 Real.pi := by
    intro θ hθ
    refine ⟨le_trans (by positivity) hθ.1.le, hθ.2.trans ?_⟩
    rw [← mul_div_assoc, div_le_iff₀ hb', mul_comm]
    refine mul_le_mul_of_nonneg_left ?_ hpi.le
    exact_mod_cast hk
  have hmd : Measurable fun θ => ENNReal.ofReal (g θ * Real.sin θ / 2) := by fun_prop
  have mg := measurable_geodesic i j
  constructor
  · refine (integrable_map_measure (g := pairTerm bins k) (measurable_pairTerm bins k).aestronglyMeasurable mg.aemeasurable).1 ?_
    rw [h.law, integrable_withDensity_iff_integrable_smul' hmd (Filter.Eventually.of_forall fun p => ENNReal.ofReal_lt_top)]
    refine Integrable.congr ?_ (hge.mono fun _ h => h.symm)
    exact (h.integrable.div_const 2).indicator measurableSet_Ioc
  · rw [← integral_map (f := pairTerm bins k) mg.aemeasurable (measurable_pairTerm bins k).aestronglyMeasurable, h.law,
      integral_withDensity_eq_integral_toReal_smul hmd (Filter.Eventually.of_forall fun p => ENNReal.ofReal_lt_top), integral_congr_ae hge,
      setIntegral_indicator measurableSet_Ioc, inter_eq_right.2 hsub, integral_div]
    unfold cellMean
    rw [intervalIntegral.integral_of_le]
    · field_simp
    · refine mul_le_mul_of_nonneg_right (by linarith) (by positivity)

/-- C96: on one device, with walkers of law `P` (which may depend on each other in any way, within and across the steps), the accumulated state divided by the
number of steps has as expectation, in every bin, the mean over the bin of the pair correlation function `(1/n²) Σ_{i≠j} g_ij`. -/
theorem c96_expectation_partial (P : Measure (Fin n → ℝ × ℝ)) (g : Fin n → Fin n → ℝ → ℝ) (hg : ∀ i j, i < j → HasPairDensity P i j (g i j)) (bins : ℕ)
    (hb : 0 < bins) (k : ℕ) (hk : k < bins) {Ω : Type} [MeasurableSpace Ω] (μ : Measure Ω) {S B : ℕ} (hS : 0 < S) (hB : 0 < B)
    (x : Fin S → Fin B → Ω → (Fin n → ℝ × ℝ)) (hx : ∀ s b, AEMeasurable (x s b) μ) (hl : ∀ s b, Measure.map (x s b) μ = P) :
    ∫ ω, pairState bins (List.ofFn fun s => List.ofFn fun b => x s b ω) k / S ∂μ =
      2 / (n : ℝ) ^ 2 * ∑ i, ∑ j, if i < j then cellMean bins k (g i j) else 0 := by
  have hpi := Real.pi_pos
  have hb' : (0 : ℝ) < bins := by exact_mod_cast hb
  have hS' : (S : ℝ) ≠ 0 := by exact_mod_cast hS.ne'
  have hB' : (B : ℝ) ≠ 0 := by exact_mod_cast hB.ne'
  have form : ∀ ω, pairState bins (List.ofFn fun s => List.ofFn fun b => x s b ω) k / S =
      4 * bins / (B * (n : ℝ) ^ 2 * Real.pi) / S * ∑ s, ∑ b, ∑ i, ∑ j, if i < j then pairTerm bins k (geodesic (x s b ω i) (x s b ω j)) else 0 := by
    intro ω
    rw [c96_state]
    simp only [c96_step bins hb _ k hk, List.map_ofFn, List.sum_ofFn, Function.comp_def, List.length_ofFn]
    rw [← Finset.mul_sum]
    simp only [pairTerm]
    ring
  have mt : ∀ i j, Measurable fun R : Fin n → ℝ × ℝ => pairTerm bins k (geodesic (R i) (R j)) := fun i j =>
    (measurable_pairTerm bins k).comp (measurable_geodesic i j)
  have hint : ∀ s b i j, Integrable (fun ω => if i < j then pairTerm bins k (geodesic (x s b ω i) (x s b ω j)) else 0) μ := by
    intro s b i j
    by_cases hij : i < j
    · simp only [hij, if_true]
      refine (integrable_map_measure (g := fun R : Fin n → ℝ × ℝ => pairTerm bins k (geodesic (R i) (R j))) (mt i j).aestronglyMeasurable (hx s b)).1 ?_
      rw [hl]
      exact (pairTerm_integral (hg i j hij) hb hk).1
    · simp [hij]
  have hval : ∀ s b i j, ∫ ω, (if i < j then pairTerm bins k (geodesic (x s b ω i) (x s b ω j)) else 0) ∂μ =
      (if i < j then cellMean bins k (g i j) else 0) * (Real.pi / (2 * bins)) := by
    intro s b i j
    by_cases hij : i < j
    · simp only [hij, if_true]
      rw [← integral_map (f := fun R : Fin n → ℝ × ℝ => pairTerm bins k (geodesic (R i) (R j))) (hx s b) (mt i j).aestronglyMeasurable, hl]
      exact (pairTerm_integral (hg i j hij) hb hk).2
    · simp [hij]
  simp only [form]
  rw [integral_const_mul, integral_finsetSum _ fun s _ => integrable_finsetSum _ fun b _ => integrable_finsetSum _ fun i _ =>
    integrable_finsetSum _ fun j _ => hint s b i j]
  have inner : ∀ s, ∫ ω, ∑ b, ∑ i, ∑ j, (if i < j then pairTerm bins k (geodesic (x s b ω i) (x s b ω j)) else 0) ∂μ =
      B * ((∑ i, ∑ j, if i < j then cellMean bins k (g i j) else 0) * (Real.pi / (2 * bins))) := by
    intro s
    rw [integral_finsetSum _ fun b _ => integrable_finsetSum _ fun i _ => integrable_finsetSum _ fun j _ => hint s b i j]
    have : ∀ b, ∫ ω, ∑ i, ∑ j, (if i < j then pairTerm bins k (geodesic (x s b ω i) (x s b ω j)) else 0) ∂μ =
        (∑ i, ∑ j, if i < j then cellMean bins k (g i j) else 0) * (Real.pi / (2 * bins)) := by
      intro b
      rw [integral_finsetSum _ fun i _ => integrable_finsetSum _ fun j _ => hint s b i j, Finset.sum_mul]
      refine Finset.sum_congr rfl fun i _ => ?_
      rw [integral_finsetSum _ fun j _ => hint s b i j, Finset.sum_mul]
      exact Finset.sum_congr rfl fun j _ => hval s b i j
    simp only [this, Finset.sum_const, Finset.card_univ, Fintype.card_fin, nsmul_eq_mul]
  simp only [inner, Finset.sum_const, Finset.card_univ, Fintype.card_fin, nsmul_eq_mul]
  generalize (∑ i : Fin n, ∑ j : Fin n, if i < j then cellMean bins k (g i j) else 0) = T
  by_cases hn : (n : ℝ) = 0
  · simp [hn]
  · field_simp
    ring

/-! ### Independent uniform electrons -/

theorem lresample (a : Fin n) (F : (Fin n → ℝ × ℝ) → ℝ≥0∞) (hF : Measurable F) :
    ∫⁻ R, ∫⁻ r, F (Function.update R a r) ∂area ∂areaN n = ENNReal.ofReal (4 * Real.pi) * ∫⁻ R, F R ∂areaN n := by
  cases n with
  | zero => exact a.elim0
  | succ n =>
    let e := MeasurableEquiv.piFinSuccAbove (fun _ => ℝ × ℝ) a
    have mp : MeasurePreserving e (areaN (n + 1)) (area.prod (areaN n)) := measurePreserving_piFinSuccAbove (fun _ => area) a
    have hm : Measurable fun p => F (e.symm p) := hF.comp e.symm.measurable
    have hm2 : Measurable fun y => ∫⁻ r, F (e.symm (r, y)) ∂area := hm.lintegral_prod_left' (f := fun p => F (e.symm p))
    have h1 : ∫⁻ R, F R ∂areaN (n + 1) = ∫⁻ p, F (e.symm p) ∂(area.prod (areaN n)) := by
      rw [← mp.lintegral_comp hm]
      simp
    have h2 : ∫⁻ R, ∫⁻ r, F (Function.update R a r) ∂area ∂areaN (n + 1) = ∫⁻ p, (∫⁻ r, F (e.symm (r, p.2)) ∂area) ∂(area.prod (areaN n)) := by
      rw [← mp.lintegral_comp (f := fun p => ∫⁻ r, F (e.symm (r, p.2)) ∂area) (hm2.comp measurable_snd)]
      refine lintegral_congr fun R => ?_
      simp only [update_eq_insertNth]
      rfl
    rw [h1, h2, lintegral_prod_symm _ hm.aemeasurable,
      lintegral_prod (fun p : (ℝ × ℝ) × (Fin n → ℝ × ℝ) => ∫⁻ r, F (e.symm (r, p.2)) ∂area) (hm2.comp measurable_snd).aemeasurable]
    simp only [lintegral_const, area_univ]
    rw [mul_comm]

theorem measurable_point : Measurable point := by
  unfold point
  exact DmcMove.measurable_pt (by fun_prop) (by fun_prop) (by fun_prop)

theorem smul_point (r θ φ : ℝ) : DmcMove.pt (r * Real.sin θ * Real.cos φ) (r * Real.sin θ * Real.sin φ) (r * Real.cos θ) = r • point (θ, φ) := by
  ext k
  fin_cases k <;> simp [DmcMove.pt, point] <;> ring

theorem point_periodic (θ φ : ℝ) : point (θ, φ + 2 * Real.pi) = point (θ, φ) := by simp [point]

/-- An integral over the sphere from one over the ball. -/
theorem ball_sphere (h : EuclideanSpace ℝ (Fin 3) → ℝ≥0∞) (hh : Measurable h) :
    ∫⁻ x : EuclideanSpace ℝ (Fin 3), (if ‖x‖ < 1 then h (‖x‖⁻¹ • x) else 0) =
      (∫⁻ r in Ioi (0 : ℝ), if r < 1 then ENNReal.ofReal r * ENNReal.ofReal r else 0) * ∫⁻ e, h (point e) ∂area := by
  have hF : Measurable fun x : EuclideanSpace ℝ (Fin 3) => if ‖x‖ < 1 then h (‖x‖⁻¹ • x) else 0 := by
    refine Measurable.ite (measurableSet_lt measurable_norm measurable_const) (hh.comp ?_) measurable_const
    exact measurable_norm.inv.smul measurable_id
  have hmp : Measurable fun e => h (point e) := hh.comp measurable_point
  have harea : ∫⁻ e, h (point e) ∂area = ∫⁻ φ in Ioo 0 (2 * Real.pi), ∫⁻ θ in Ioo 0 Real.pi, ENNReal.ofReal (Real.sin θ) * h (point (θ, φ)) := by
    unfold area
    rw [lintegral_prod_symm _ hmp.aemeasurable]
    have : ∀ φ, ∫⁻ θ, h (point (θ, φ)) ∂polarM = ∫⁻ θ in Ioo 0 Real.pi, ENNReal.ofReal (Real.sin θ) * h (point (θ, φ)) := by
      intro φ
      unfold polarM
      have hmφ : Measurable fun θ => h (point (θ, φ)) := hmp.comp (measurable_id.prodMk measurable_const)
      rw [lintegral_withDensity_eq_lintegral_mul _ (by fun_prop) hmφ, setLIntegral_congr Ioo_ae_eq_Icc.symm]
      rfl
    simp only [this]
    rw [setLIntegral_congr Ioo_ae_eq_Icc.symm]
    exact DmcMove.lintegral_turn (fun φ => ∫⁻ θ in Ioo 0 Real.pi, ENNReal.ofReal (Real.sin θ) * h (point (θ, φ))) fun φ => by simp only [point_periodic]
  rw [DmcMove.lintegral_spherical _ hF, harea, ← lintegral_mul_const _ (by
    refine Measurable.ite (measurableSet_lt measurable_id measurable_const) (by fun_prop) measurable_const)]
  refine setLIntegral_congr_fun measurableSet_Ioi fun r hr => ?_
  have hr0 : (0 : ℝ) < r := hr
  simp only [smul_point, norm_smul, norm_point, mul_one, Real.norm_eq_abs, abs_of_pos hr0, smul_smul, inv_mul_cancel₀ hr0.ne', one_smul]
  by_cases h1 : r < 1
  · simp only [h1, if_true]
    have m2 : Measurable fun p : ℝ × ℝ => ENNReal.ofReal (Real.sin p.2) * h (point (p.2, p.1)) :=
      (by fun_prop : Measurable fun p : ℝ × ℝ => ENNReal.ofReal (Real.sin p.2)).mul (hmp.comp measurable_swap)
    rw [← lintegral_const_mul _ (Measurable.lintegral_prod_right' m2)]
    refine lintegral_congr fun φ => ?_
    have m3 : Measurable fun y : ℝ => ENNReal.ofReal (Real.sin (φ, y).2) * h (point ((φ, y).2, (φ, y).1)) := m2.comp (measurable_const.prodMk measurable_id)
    rw [← lintegral_const_mul _ m3]
    refine lintegral_congr fun θ => ?_
    rw [ENNReal.ofReal_mul hr0.le]
    ring
  · simp [h1]

/-- Rotation invariance: the component of a uniform point along any unit vector is distributed as its cosine of the polar angle. -/
theorem component (w : EuclideanSpace ℝ (Fin 3)) (hw : ‖w‖ = 1) (F : ℝ → ℝ≥0∞) (hF : Measurable F) :
    ∫⁻ e, F (inner ℝ w (point e)) ∂area = ∫⁻ e, F (Real.cos e.1) ∂area := by
  set z : EuclideanSpace ℝ (Fin 3) := point (0, 0) with hz
  have hzn : ‖z‖ = 1 := norm_point _
  have hzi : ∀ e, inner ℝ z (point e) = Real.cos e.1 := by
    intro e
    rw [hz, ← cos12_inner]
    simp [cos12, xyz, Fin.sum_univ_three]
  simp only [← hzi]
  have mi : ∀ v : EuclideanSpace ℝ (Fin 3), Measurable fun x => F (inner ℝ v x) := fun v => hF.comp (by fun_prop)
  set c := ∫⁻ r in Ioi (0 : ℝ), if r < 1 then ENNReal.ofReal r * ENNReal.ofReal r else 0 with hc
  have b1 := ball_sphere (fun x => F (inner ℝ w x)) (mi w)
  have b2 := ball_sphere (fun x => F (inner ℝ z x)) (mi z)
  rw [← hc] at b1 b2
  let U := (Submodule.span ℝ {w - z})ᗮ.reflection
  have hU : U w = z := Submodule.reflection_sub (by rw [hw, hzn])
  have inv : ∫⁻ x : EuclideanSpace ℝ (Fin 3), (if ‖x‖ < 1 then F (inner ℝ w (‖x‖⁻¹ • x)) else 0) =
      ∫⁻ x : EuclideanSpace ℝ (Fin 3), (if ‖x‖ < 1 then F (inner ℝ z (‖x‖⁻¹ • x)) else 0) := by
    have hF' : Measurable fun x : EuclideanSpace ℝ (Fin 3) => if ‖x‖ < 1 then F (inner ℝ z (‖x‖⁻¹ • x)) else 0 := by
      refine Measurable.ite (measurableSet_lt measurable_norm measurable_const) ((mi z).comp ?_) measurable_const
      exact measurable_norm.inv.smul measurable_id
    rw [← (U.measurePreserving).lintegral_comp hF']
    refine lintegral_congr fun x => ?_
    have : ∀ t : ℝ, inner ℝ z (t • U x) = inner ℝ w (t • x) := by
      intro t
      rw [← hU, inner_smul_right, inner_smul_right, LinearIsometryEquiv.inner_map_map]
    simp only [LinearIsometryEquiv.norm_map, this]
  have b3 := ball_sphere (fun _ => 1) measurable_const
  rw [← hc, lintegral_const, one_mul, area_univ] at b3
  have vol : ∫⁻ x : EuclideanSpace ℝ (Fin 3), (if ‖x‖ < 1 then (1 : ℝ≥0∞) else 0) = volume (Metric.ball (0 : EuclideanSpace ℝ (Fin 3)) 1) := by
    have : (fun x : EuclideanSpace ℝ (Fin 3) => if ‖x‖ < 1 then (1 : ℝ≥0∞) else 0) = (Metric.ball 0 1).indicator 1 := by
      funext x
      simp [indicator]
    rw [this, lintegral_indicator_one Metric.isOpen_ball.measurableSet]
  rw [vol] at b3
  have c0 : c ≠ 0 := by
    intro h0
    rw [h0, zero_mul] at b3
    exact (Metric.measure_ball_pos volume (0 : EuclideanSpace ℝ (Fin 3)) one_pos).ne' b3
  have cT : c ≠ ⊤ := by
    intro h0
    rw [h0, ENNReal.top_mul (by simp [Real.pi_pos])] at b3
    exact measure_ball_lt_top.ne b3
  rw [b1, b2] at inv
  exact (ENNReal.mul_right_inj c0 cT).1 inv

/-- Independent uniform electrons. -/
noncomputable def uniformLaw (n : ℕ) : Measure (Fin n → ℝ × ℝ) := Measure.pi fun _ => ENNReal.ofReal (1 / (4 * Real.pi)) • area

instance : IsProbabilityMeasure (ENNReal.ofReal (1 / (4 * Real.pi)) • area) := by
  rw [← draws_map]
  exact Measure.isProbabilityMeasure_map measurable_sampleSphere.aemeasurable

theorem uniformLaw_eq (n : ℕ) : uniformLaw n = ENNReal.ofReal (1 / (4 * Real.pi)) ^ n • areaN n := by
  refine (Measure.pi_eq fun s _ => ?_)
  rw [Measure.smul_apply, areaN, Measure.pi_pi]
  simp only [Measure.smul_apply, smul_eq_mul, Finset.prod_mul_distrib, Finset.prod_const, Finset.card_univ, Fintype.card_fin]

instance (n : ℕ) : IsProbabilityMeasure (uniformLaw n) := by unfold uniformLaw; infer_instance

/-- C96: two independent uniform electrons have the correlation function one. -/
theorem c96_uniform_pair (i j : Fin n) (hij : i ≠ j) : HasPairDensity (uniformLaw n) i j fun _ => 1 := by
  have hpi := Real.pi_pos
  refine ⟨measurable_const, fun _ => zero_le_one, integrableOn_const (by simp), ?_⟩
  refine Measure.ext_of_lintegral _ fun f hf => ?_
  have mg := measurable_geodesic i j
  rw [lintegral_map hf mg]
  set c := ENNReal.ofReal (1 / (4 * Real.pi)) with hc
  have c4 : c * ENNReal.ofReal (4 * Real.pi) = 1 := by
    rw [hc, ← ENNReal.ofReal_mul (by positivity), one_div_mul_cancel (by positivity), ENNReal.ofReal_one]
  have one : ∀ e, ∫⁻ r, f (geodesic e r) ∂area = ENNReal.ofReal (2 * Real.pi) * ∫⁻ θ, f θ ∂polarM := by
    intro e
    have h1 : ∀ r, f (geodesic e r) = (fun x => f (Real.arccos x)) (inner ℝ (point e) (point r)) := by
      intro r
      simp only [geodesic, InnerProductGeometry.angle, norm_point, mul_one, div_one]
    simp only [h1]
    rw [component (point e) (norm_point e) (fun x => f (Real.arccos x)) (hf.comp measurable_arccos)]
    unfold area
    have hm : Measurable fun θ => f (Real.arccos (Real.cos θ)) := hf.comp (measurable_arccos.comp Real.measurable_cos)
    rw [lintegral_prod (fun e : ℝ × ℝ => f (Real.arccos (Real.cos e.1))) (hm.comp measurable_fst).aemeasurable]
    simp only [lintegral_const, Measure.restrict_apply_univ, Real.volume_Icc]
    rw [lintegral_mul_const _ hm, mul_comm]
    congr 1
    · congr 1; ring
    · refine lintegral_congr_ae ?_
      have hp : ∀ᵐ θ ∂polarM, θ ∈ Icc 0 Real.pi := by
        unfold polarM
        exact (withDensity_absolutelyContinuous _ _).ae_le (ae_restrict_mem measurableSet_Icc)
      filter_upwards [hp] with θ hθ
      rw [Real.arccos_cos hθ.1 hθ.2]
  have h2 := lresample j (fun R => f (geodesic (R i) (R j))) (hf.comp mg)
  have h3 : ∀ (R : Fin n → ℝ × ℝ) (r : ℝ × ℝ), geodesic (Function.update R j r i) (Function.update R j r j) = geodesic (R i) r := by
    intro R r
    rw [Function.update_of_ne hij, Function.update_self]
  simp only [h3, one, lintegral_const] at h2
  have hN : c ^ n * areaN n univ = 1 := by
    have := measure_univ (μ := uniformLaw n)
    rw [uniformLaw_eq, Measure.smul_apply, smul_eq_mul] at this
    exact this
  rw [uniformLaw_eq, lintegral_smul_measure, smul_eq_mul]
  have h4 : c ^ n * ∫⁻ R, f (geodesic (R i) (R j)) ∂areaN n = c * (ENNReal.ofReal (2 * Real.pi) * ∫⁻ θ, f θ ∂polarM) := by
    calc c ^ n * ∫⁻ R, f (geodesic (R i) (R j)) ∂areaN n = c ^ n * ((c * ENNReal.ofReal (4 * Real.pi)) * ∫⁻ R, f (geodesic (R i) (R j)) ∂areaN n) := by
          rw [c4, one_mul]
      _ = c ^ n * (c * (ENNReal.ofReal (4 * Real.pi) * ∫⁻ R, f (geodesic (R i) (R j)) ∂areaN n)) := by rw [mul_assoc]
      _ = c ^ n * (c * (ENNReal.ofReal (2 * Real.pi) * (∫⁻ θ, f θ ∂polarM) * areaN n univ)) := by rw [← h2]
      _ = (c ^ n * areaN n univ) * (c * (ENNReal.ofReal (2 * Real.pi) * ∫⁻ θ, f θ ∂polarM)) := by ring
      _ = _ := by rw [hN, one_mul]
  rw [h4, ← mul_assoc, hc, ← ENNReal.ofReal_mul (by positivity)]
  unfold polarM
  rw [lintegral_withDensity_eq_lintegral_mul _ (by fun_prop) hf, lintegral_withDensity_eq_lintegral_mul _ (by fun_prop) hf,
    ← lintegral_const_mul _ ((by fun_prop : Measurable fun θ => ENNReal.ofReal (Real.sin θ)).mul hf)]
  refine lintegral_congr fun θ => ?_
  simp only [Pi.mul_apply, one_mul]
  rw [← mul_assoc, ← ENNReal.ofReal_mul (by positivity)]
  congr 2
  field_simp
  norm_num

theorem cellMean_one {bins k : ℕ} (hb : 0 < bins) : cellMean bins k (fun _ => 1) = 1 := by
  have hpi := Real.pi_pos
  have hb' : (0 : ℝ) < bins := by exact_mod_cast hb
  unfold cellMean
  rw [intervalIntegral.integral_const, smul_eq_mul]
  field_simp
  ring

theorem count_pairs (n : ℕ) : (∑ i : Fin n, ∑ j : Fin n, if i < j then (1 : ℝ) else 0) = n * (n - 1) / 2 := by
  have h1 : (∑ i : Fin n, ∑ j : Fin n, if i < j then (1 : ℝ) else 0) = ∑ i : Fin n, ∑ j : Fin n, if j < i then (1 : ℝ) else 0 := Finset.sum_comm
  have h2 : (∑ i : Fin n, ∑ j : Fin n, if i < j then (1 : ℝ) else 0) + (∑ i : Fin n, ∑ j : Fin n, if j < i then (1 : ℝ) else 0) + ∑ i : Fin n, ∑ j : Fin n, (if i = j then (1 : ℝ) else 0) = n * n := by
    simp only [← Finset.sum_add_distrib]
    have : ∀ i j : Fin n, ((if i < j then (1 : ℝ) else 0) + if j < i then (1 : ℝ) else 0) + (if i = j then (1 : ℝ) else 0) = 1 := by
      intro i j
      rcases lt_trichotomy i j with h | h | h
      · simp [h, h.not_gt, h.ne]
      · simp [h]
      · simp [h, h.not_gt, h.ne']
    simp [this]
  simp only [Finset.sum_ite_eq, Finset.mem_univ, if_true, Finset.sum_const, Finset.card_univ, Fintype.card_fin, nsmul_eq_mul, mul_one] at h2
  rw [← h1] at h2
  linarith

/-- C96: for independent uniform electrons the expectation is `(n - 1)/n` in every bin, the value of the ideal gas. -/
theorem c96_uniform_partial (hn : 0 < n) (bins : ℕ) (hb : 0 < bins) (k : ℕ) (hk : k < bins) {Ω : Type} [MeasurableSpace Ω] (μ : Measure Ω) {S B : ℕ} (hS : 0 < S)
    (hB : 0 < B) (x : Fin S → Fin B → Ω → (Fin n → ℝ × ℝ)) (hx : ∀ s b, AEMeasurable (x s b) μ) (hl : ∀ s b, Measure.map (x s b) μ = uniformLaw n) :
    ∫ ω, pairState bins (List.ofFn fun s => List.ofFn fun b => x s b ω) k / S ∂μ = ((n : ℝ) - 1) / n := by
  rw [c96_expectation_partial (uniformLaw n) (fun _ _ _ => 1) (fun i j h => c96_uniform_pair i j h.ne) bins hb k hk μ hS hB x hx hl]
  simp only [cellMean_one hb, count_pairs]
  have : (n : ℝ) ≠ 0 := by exact_mod_cast hn.ne'
  field_simp

/-- Walkers that meet the hypotheses: one step of one walker, drawn from the uniform law. -/
example : ∃ (Ω : Type) (_ : MeasurableSpace Ω) (μ : Measure Ω) (x : Fin 1 → Fin 1 → Ω → (Fin 3 → ℝ × ℝ)),
    (∀ s b, AEMeasurable (x s b) μ) ∧ ∀ s b, Measure.map (x s b) μ = uniformLaw 3 :=
  ⟨Fin 3 → ℝ × ℝ, inferInstance, uniformLaw 3, fun _ _ => id, fun _ _ => aemeasurable_id, fun _ _ => Measure.map_id⟩

/-- C96 fails with several devices: the state is partitioned over the devices, but it has no device axis, and the first step is an error unless the number of
bins is one or the number of devices. -/
theorem c96_devices (D bins : ℕ) (hD : 2 ≤ D) (hb : 2 ≤ bins) (h : bins ≠ D) : pairStepLen D bins bins = none ∧ pairStepLen 1 bins bins = some bins := by
  constructor
  · unfold pairStepLen shardLen
    split
    · next hd =>
      simp only [Option.bind_some, Option.map_eq_none_iff]
      unfold broadcastLen
      obtain ⟨c, rfl⟩ := hd
      rw [Nat.mul_div_cancel_left _ (by omega)]
      have hc : c ≠ D * c := by
        intro e
        rcases Nat.eq_zero_or_pos c with h0 | h0
        · subst h0; omega
        · nlinarith
      have h1 : c ≠ 1 := by rintro rfl; exact h (mul_one D)
      rw [if_neg hc, if_neg h1, if_neg (by omega)]
    · rfl
  · simp [pairStepLen, shardLen, broadcastLen]

end Jaqmc.HallStats.Props
