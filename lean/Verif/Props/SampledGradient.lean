import Verif.Lemmas.SampledGradient
import Verif.Model.SampledGradient
import Verif.Props.Variance
import Verif.Props.Ergodic
import Verif.Props.EnergyGradient
/-!
C141: the gradient a training step takes from sampled walkers.
-/
namespace Jaqmc.Average.Props
open Jaqmc.Sampler Jaqmc.Sampler.Props Jaqmc.Average Jaqmc.Average.Spec Jaqmc.Average.SampledGradient Jaqmc.LossGrad.Spec
open MeasureTheory ProbabilityTheory
open scoped ENNReal ComplexConjugate Classical

set_option linter.unusedSectionVars false

variable {V N Ω Key : Type} {n d : ℕ} [MeasurableSpace V] [MeasurableSpace N] [MeasurableSpace Ω] {P : Measure Ω} [IsProbabilityMeasure P] {ν : Measure N} {μ : Measure V}

/-! ### The walkers of a batch together -/

/-- From wherever they start: the walkers of a batch are independent, all together. -/
theorem run_independent {ψ : V → ℂ} (hψ : Measurable ψ) {move : ℝ → N → V → V} {σ : ℝ} (hmv : Measurable fun p : V × N => move σ p.2 p.1) {cfg : Cfg}
    {g : RandomRng Ω Key N n} {keys : ℕ → Fin d → Key} {x₀ : Ω → Fin d → Batch Unit n V} {s : State} {T : ℕ} (S : Run P ν σ cfg g keys x₀ s T)
    (I : Separate P cfg.steps g keys x₀ T) (k : ℕ) (hk : k ≤ T) :
    iIndepFun (fun (w : Fin d × Fin n) ω => walkers cfg g move ψ keys x₀ s ω k w.1 () w.2) P := by
  rcases isEmpty_or_nonempty (Fin d × Fin n) with he | ⟨⟨w₀⟩⟩
  · exact iIndepFun.of_subsingleton
  have hΩ : Nonempty Ω := nonempty_of_isProbabilityMeasure P
  have hN : Nonempty N := ⟨g.noise (keys 0 w₀.1) w₀.2 (Classical.arbitrary Ω)⟩
  have hu : ∀ k i ω, g.uniform k i ω ∈ Set.Ico (0 : ℝ) 1 := fun k i ω => (S.draws i).range k ω
  have ha : Measurable fun y => ‖ψ y‖ ^ 2 := hψ.norm.pow_const 2
  have hc : ∀ w : Fin d × Fin n, Measurable fun p : V × (Key × Fin n → N × ℝ) =>
      chain (fun y => ‖ψ y‖ ^ 2) (move σ) (fun q => p.2 (q, w.2)) p.1 (pairs g.split3 (fun t => keys t w.1) cfg.steps k) := by
    intro w
    have h1 := chain_measurable ha hmv (pairs g.split3 (fun t => keys t w.1) cfg.steps k)
    have h2 : Measurable fun p : V × (Key × Fin n → N × ℝ) => (p.1, fun q : Key => p.2 (q, w.2)) :=
      measurable_fst.prodMk (measurable_pi_iff.mpr fun q => (measurable_pi_apply (q, w.2)).comp measurable_snd)
    exact h1.comp h2
  have h := all_apart (fun q : Key × Fin n => (S.draws q.2).measurable q.1) I.draws (X := fun (w : Fin d × Fin n) ω => x₀ ω w.1 () w.2)
    (fun w => S.measurable w.1 w.2) I.starts I.together
    (S := fun w => ((allKeys (pairs g.split3 (fun t => keys t w.1) cfg.steps k)).map fun q => (q, w.2)).toFinset)
    (by
      intro w w' hw
      rw [Finset.disjoint_left]
      intro q hq hq'
      simp only [List.mem_toFinset, List.mem_map] at hq hq'
      obtain ⟨k1, m1, rfl⟩ := hq
      obtain ⟨k2, m2, h12⟩ := hq'
      obtain ⟨rfl, h2⟩ := Prod.mk.inj h12
      exact I.apart _ _ (fun h1 => hw (Prod.ext h1 h2.symm)) (pairs_mem hk m1) (pairs_mem hk m2))
    (f := fun w x δ => chain (fun y => ‖ψ y‖ ^ 2) (move σ) (fun q => δ (q, w.2)) x (pairs g.split3 (fun t => keys t w.1) cfg.steps k)) hc
    (by
      intro w x δ δ' hδ
      have hm : ∀ q ∈ allKeys (pairs g.split3 (fun t => keys t w.1) cfg.steps k), δ (q, w.2) = δ' (q, w.2) := fun q hq =>
        hδ _ (by simp only [List.mem_toFinset, List.mem_map]; exact ⟨q, hq, rfl⟩)
      exact chain_congr _ _ _ _ _ _ fun q hq => ⟨hm _ (mem_allKeys hq).1, hm _ (mem_allKeys hq).2⟩)
  refine (iIndepFun_congr fun w => Filter.Eventually.of_forall fun ω => ?_).mp h
  have e := walkers_chain cfg g hu move ψ keys x₀ s T S.steady ω w.1 w.2 k hk
  rw [S.width] at e
  exact e.symm

theorem setup_run {cfg : Cfg} {g : RandomRng Ω Key N n} {move : ℝ → N → V → V} {ψ : V → ℂ} {keys : ℕ → Fin d → Key}
    {x₀ : Ω → Fin d → Batch Unit n V} {s : State} {T : ℕ} (S : Setup P ν μ cfg g move ψ keys x₀ s T) (hst : Steady cfg s T) : Run P ν s.stddev cfg g keys x₀ s T :=
  ⟨rfl, S.draws, fun a i => (S.start a i).measurable, fun a i => (S.start a i).indep, S.fresh, hst⟩

/-- **C141.** The walkers of a batch are, after every step, an independent sample from the squared wavefunction: whatever is computed from the whole batch, with or without
clipping, is distributed as for such a sample. -/
theorem c141_sample {cfg : Cfg} {g : RandomRng Ω Key N n} {move : ℝ → N → V → V} {ψ : V → ℂ} {keys : ℕ → Fin d → Key}
    {x₀ : Ω → Fin d → Batch Unit n V} {s : State} {T : ℕ} (S : Setup P ν μ cfg g move ψ keys x₀ s T) (hst : Steady cfg s T)
    (I : Separate P cfg.steps g keys x₀ T) (k : ℕ) (hk : k ≤ T) :
    MeasurePreserving (fun ω (w : Fin d × Fin n) => walkers cfg g move ψ keys x₀ s ω k w.1 () w.2) P (Measure.pi fun _ => walkerLaw μ ψ) := by
  have hm := fun w : Fin d × Fin n => walker_measurable S hst k hk w.1 w.2
  refine ⟨measurable_pi_iff.mpr hm, ?_⟩
  have h := run_independent S.wavefunction S.move_measurable (setup_run S hst) I k hk
  rw [iIndepFun_iff_map_fun_eq_pi_map fun w => (hm w).aemeasurable] at h
  rw [h]
  exact congrArg Measure.pi (funext fun w => c135_law S hst k hk w.1 w.2)

/-! ### The gradient of a batch -/

theorem stepGradient_eq (method : String) (scale : ℝ) (g e : V → ℂ) (x : Fin d → Batch Unit n V) :
    stepGradient method scale g e x =
      LossGrad.lossAndGrad method scale [LossGrad.Spec.walkers (LossGrad.Props.batch g e fun w : Fin d × Fin n => x w.1 () w.2)] := by
  unfold stepGradient LossGrad.Spec.walkers LossGrad.Props.batch
  refine congrArg (fun l => LossGrad.lossAndGrad method scale [l]) ?_
  rw [← List.ofFn_eq_map, List.map_ofFn]
  refine congrArg List.ofFn (funext fun a => ?_)
  simp only [Function.comp_apply]
  rw [← List.ofFn_eq_map, List.map_ofFn]
  rfl

/-- **C141.** A training step whose walkers follow the squared wavefunction computes, without clipping, a loss that averages to the energy and a gradient that averages to
`1 - 1/N` times the derivative of the energy (`N` walkers in all), plus `(4/N) ⟨Im ∂log ψ · Im E_L⟩`, which vanishes for real wavefunctions. -/
theorem c141_gradient {H : L2C μ →ₗ.[ℂ] L2C μ} (hs : Symmetric H) {ψ : ℝ → H.domain} {Ψ : ℝ → V → ℂ} {θ : ℝ} {g e : V → ℂ}
    (F : Family H ψ Ψ θ g) (he : IsLocalEnergy H (ψ θ) e) (hd : 0 < d) (hn : 0 < n) (scale : ℝ) {cfg : Cfg} {r : RandomRng Ω Key N n} {move : ℝ → N → V → V}
    {keys : ℕ → Fin d → Key} {x₀ : Ω → Fin d → Batch Unit n V} {s : State} {T : ℕ} (S : Setup P ν μ cfg r move (Ψ θ) keys x₀ s T) (hst : Steady cfg s T)
    (I : Separate P cfg.steps r keys x₀ T) (k : ℕ) (hk : k ≤ T) :
    ∃ (loss : Ω → ℂ) (grad : Ω → ℝ) (dE : ℝ),
      (∀ ω, sampledGradient "none" scale cfg r move (Ψ θ) g e keys x₀ s k ω = .ok (some (loss ω), some (grad ω))) ∧
      HasDerivAt (fun t => energy H (ψ t)) dE θ ∧
      Integrable loss P ∧ ∫ ω, loss ω ∂P = energy H (ψ θ) ∧
      Integrable grad P ∧ ∫ ω, grad ω ∂P = (1 - 1 / ((d * n : ℕ) : ℝ)) * dE + 4 / ((d * n : ℕ) : ℝ) * ∫ x, (g x).im * (e x).im ∂walkerLaw μ (Ψ θ) := by
  obtain ⟨loss, grad, dE, h1, h2, h3, h4, h5, h6⟩ := LossGrad.Props.c94_gradient hs F he hd hn scale
  have hl : walkerLaw μ (ψ θ : L2C μ) = walkerLaw μ (Ψ θ) := law_congr (F.values θ)
  rw [hl] at h3 h4 h5 h6
  have hp := c141_sample S hst I k hk
  have tr : ∀ {E : Type} [NormedAddCommGroup E] [NormedSpace ℝ E] {f : (Fin d × Fin n → V) → E}, Integrable f (Measure.pi fun _ => walkerLaw μ (Ψ θ)) →
      Integrable (fun ω => f fun w => walkers cfg r move (Ψ θ) keys x₀ s ω k w.1 () w.2) P ∧
      ∫ ω, f (fun w => walkers cfg r move (Ψ θ) keys x₀ s ω k w.1 () w.2) ∂P = ∫ x, f x ∂(Measure.pi fun _ => walkerLaw μ (Ψ θ)) := by
    intro E _ _ f hf
    refine ⟨hp.integrable_comp_of_integrable hf, ?_⟩
    have h := integral_map (μ := P) hp.aemeasurable (f := f) (by rw [hp.map_eq]; exact hf.aestronglyMeasurable)
    rw [← h, hp.map_eq]
  refine ⟨_, _, dE, fun ω => ?_, h2, (tr h3).1, (tr h3).2.trans h4, (tr h5).1, (tr h5).2.trans h6⟩
  unfold sampledGradient
  rw [stepGradient_eq]
  exact h1 _

/-! ### Large batches -/

/-- The loss of a batch. -/
noncomputable def lossOf (e : V → ℂ) (x : Fin d × Fin n → V) : ℂ := (∑ i, e (x i)) / ((d * n : ℕ) : ℂ)

/-- The gradient of a batch without clipping. -/
noncomputable def gradOf (g e : V → ℂ) (x : Fin d × Fin n → V) : ℝ :=
  2 * ((∑ i, conj (g (x i)) * e (x i)) / ((d * n : ℕ) : ℂ) - ((∑ i, e (x i)) * ∑ i, g (x i)) / (((d * n : ℕ) : ℂ) ^ 2)).re

theorem sampledGradient_eq (hd : 0 < d) (hn : 0 < n) (scale : ℝ) (cfg : Cfg) (r : RandomRng Ω Key N n) (move : ℝ → N → V → V) (ψ g e : V → ℂ)
    (keys : ℕ → Fin d → Key) (x₀ : Ω → Fin d → Batch Unit n V) (s : State) (k : ℕ) (ω : Ω) :
    sampledGradient "none" scale cfg r move ψ g e keys x₀ s k ω =
      .ok (some (lossOf e fun w : Fin d × Fin n => walkers cfg r move ψ keys x₀ s ω k w.1 () w.2),
        some (gradOf g e fun w : Fin d × Fin n => walkers cfg r move ψ keys x₀ s ω k w.1 () w.2)) := by
  unfold sampledGradient
  rw [stepGradient_eq]
  exact LossGrad.Props.batch_value hd hn scale g e _

theorem close_product {a b c A B C : ℂ} {δ ε : ℝ} (h1 : δ ≤ 1) (hε : 2 * (δ * (2 + ‖b‖ + ‖c‖)) ≤ ε) (hA : ‖A - a‖ < δ) (hB : ‖B - b‖ < δ) (hC : ‖C - c‖ < δ) :
    |2 * (A - B * C).re - 2 * (a - b * c).re| ≤ ε := by
  have e : 2 * (A - B * C).re - 2 * (a - b * c).re = 2 * ((A - a) - (B - b) * (C - c) - b * (C - c) - (B - b) * c).re := by
    rw [← mul_sub, ← Complex.sub_re]
    congr 2
    ring
  rw [e, abs_mul, abs_two]
  refine le_trans (mul_le_mul_of_nonneg_left ((Complex.abs_re_le_norm _).trans ?_) (by norm_num)) hε
  have n1 : ‖(B - b) * (C - c)‖ ≤ δ := by
    rw [norm_mul]
    calc ‖B - b‖ * ‖C - c‖ ≤ 1 * δ := mul_le_mul (hB.le.trans h1) hC.le (norm_nonneg _) (by norm_num)
      _ = δ := one_mul _
  have n2 : ‖b * (C - c)‖ ≤ ‖b‖ * δ := by rw [norm_mul]; exact mul_le_mul_of_nonneg_left hC.le (norm_nonneg _)
  have n3 : ‖(B - b) * c‖ ≤ δ * ‖c‖ := by rw [norm_mul]; exact mul_le_mul_of_nonneg_right hB.le (norm_nonneg _)
  calc _ ≤ ‖A - a‖ + ‖(B - b) * (C - c)‖ + ‖b * (C - c)‖ + ‖(B - b) * c‖ :=
        (norm_sub_le _ _).trans (add_le_add ((norm_sub_le _ _).trans (add_le_add (norm_sub_le _ _) le_rfl)) le_rfl)
    _ ≤ δ + δ + ‖b‖ * δ + δ * ‖c‖ := by gcongr
    _ = _ := by ring

/-- Large independent samples: the loss is near the energy and the gradient near its derivative, with a chance as high as one likes. -/
theorem large_batch {H : L2C μ →ₗ.[ℂ] L2C μ} (hs : Symmetric H) {ψ : ℝ → H.domain} {Ψ : ℝ → V → ℂ} {θ : ℝ} {g e : V → ℂ}
    (F : Family H ψ Ψ θ g) (he : IsLocalEnergy H (ψ θ) e) :
    ∃ dE : ℝ, HasDerivAt (fun t => energy H (ψ t)) dE θ ∧ ∀ ε : ℝ, 0 < ε → ∃ N₀ : ℕ, ∀ d n : ℕ, N₀ ≤ d * n →
      (Measure.pi fun _ : Fin d × Fin n => walkerLaw μ (Ψ θ)) {x | ε < ‖lossOf e x - energy H (ψ θ)‖ ∨ ε < |gradOf g e x - dE|} ≤ ENNReal.ofReal ε := by
  have hne := F.ne
  obtain ⟨ψ', hdψ⟩ : ∃ ψ', HasDerivAt (fun t => (ψ t : L2C μ)) ψ' θ := ⟨_, F.diff.hasDerivAt⟩
  have hg := Jaqmc.LossGrad.Grad.pointwise_deriv F hdψ
  have one : ∀ᵐ x ∂μ, (ψ θ : L2C μ) x = (fun _ => (1 : ℂ)) x * (ψ θ : L2C μ) x := Filter.Eventually.of_forall fun x => (one_mul _).symm
  obtain ⟨i1, a1⟩ := Jaqmc.LossGrad.Grad.inner_avg hne ψ' (H (ψ θ)) g e hg he
  obtain ⟨i2, a2⟩ := Jaqmc.LossGrad.Grad.inner_avg hne ψ' (ψ θ) g (fun _ => 1) hg one
  obtain ⟨i3, a3⟩ := local_mean hs (ψ θ) hne he
  have i5 : Integrable g (walkerLaw μ (ψ θ : L2C μ)) := by
    have := Jaqmc.LossGrad.Grad.prod_integrable hne ψ' (ψ θ) g (fun _ => 1) hg one
    simpa using this
  simp only [mul_one] at a2 i2
  have hZ := Jaqmc.LossGrad.Grad.Z_pos hne
  have hprob : IsProbabilityMeasure (walkerLaw μ (Ψ θ)) := by
    rw [← law_congr (F.values θ)]; exact Jaqmc.LossGrad.Grad.law_prob hne
  have hdE := Jaqmc.LossGrad.Grad.energy_deriv hs hdψ F.cont hne
  refine ⟨2 * ((∫ x, conj (g x) * e x ∂walkerLaw μ (Ψ θ)) - (energy H (ψ θ) : ℂ) * ∫ x, g x ∂walkerLaw μ (Ψ θ)).re, ?_, ?_⟩
  · convert hdE using 1
    rw [a1, a2, Jaqmc.LossGrad.Grad.Z_eq, law_congr (F.values θ)]
    have hcj : ∫ x, conj (g x) ∂walkerLaw μ (Ψ θ) = conj (∫ x, g x ∂walkerLaw μ (Ψ θ)) := integral_conj
    rw [hcj, Complex.re_mul_ofReal, Complex.re_mul_ofReal, Complex.conj_re, Complex.sub_re, Complex.re_ofReal_mul]
    field_simp
  · rw [law_congr (F.values θ)] at i1 i3 i5 a3
    intro ε hε
    set b : ℂ := (energy H (ψ θ) : ℂ) with hb
    set c : ℂ := ∫ x, g x ∂walkerLaw μ (Ψ θ) with hc
    set D : ℝ := 2 * (2 + ‖b‖ + ‖c‖) with hD
    have hD0 : 0 < D := by positivity
    obtain ⟨δ, hδ, h1, h2, h3⟩ : ∃ δ : ℝ, 0 < δ ∧ δ ≤ 1 ∧ δ * D ≤ ε ∧ δ ≤ ε := by
      refine ⟨min 1 (min ε (ε / D)), by positivity, min_le_left _ _, ?_, (min_le_right _ _).trans (min_le_left _ _)⟩
      have : min 1 (min ε (ε / D)) ≤ ε / D := (min_le_right _ _).trans (min_le_right _ _)
      calc _ ≤ ε / D * D := mul_le_mul_of_nonneg_right this hD0.le
        _ = ε := div_mul_cancel₀ _ hD0.ne'
    have hη : (0 : ℝ≥0∞) < ENNReal.ofReal (ε / 3) := by rw [ENNReal.ofReal_pos]; positivity
    obtain ⟨N1, w1⟩ := weak_law i1 hδ hη
    obtain ⟨N2, w2⟩ := weak_law i3 hδ hη
    obtain ⟨N3, w3⟩ := weak_law i5 hδ hη
    refine ⟨max N1 (max N2 N3), fun d n hdn => ?_⟩
    have hcard : Fintype.card (Fin d × Fin n) = d * n := by simp
    have u1 := w1 (Fin d × Fin n) (by rw [hcard]; omega)
    have u2 := w2 (Fin d × Fin n) (by rw [hcard]; omega)
    have u3 := w3 (Fin d × Fin n) (by rw [hcard]; omega)
    rw [hcard] at u1 u2 u3
    rw [a3] at u2
    refine le_trans (measure_mono (t := _ ∪ (_ ∪ _)) ?_) ((measure_union_le _ _).trans ((add_le_add u1 ((measure_union_le _ _).trans (add_le_add u2 u3))).trans (le_of_eq ?_)))
    · intro x hx
      by_contra hcon
      simp only [Set.mem_union, Set.mem_ofPred_eq, not_or, not_le] at hcon
      obtain ⟨k1, k2, k3⟩ := hcon
      rcases hx with hx | hx
      · unfold lossOf at hx
        linarith
      · have hk := close_product h1 (by linarith [h2, hD] : 2 * (δ * (2 + ‖b‖ + ‖c‖)) ≤ ε) k1 k2 k3
        unfold gradOf at hx
        rw [pow_two, ← div_mul_div_comm] at hx
        linarith
    · rw [← ENNReal.ofReal_add (by positivity) (by positivity), ← ENNReal.ofReal_add (by positivity) (by positivity)]
      congr 1
      ring

/-- **C141.** With enough walkers the loss of a training step is as close to the energy, and its gradient as close to the derivative of the energy, as one likes, with a chance
as near to certainty as one likes: how many walkers it takes depends on the wavefunction and its parameter only. -/
theorem c141_accurate {H : L2C μ →ₗ.[ℂ] L2C μ} (hs : Symmetric H) {ψ : ℝ → H.domain} {Ψ : ℝ → V → ℂ} {θ : ℝ} {g e : V → ℂ}
    (F : Family H ψ Ψ θ g) (he : IsLocalEnergy H (ψ θ) e) :
    ∃ dE : ℝ, HasDerivAt (fun t => energy H (ψ t)) dE θ ∧ ∀ ε : ℝ, 0 < ε → ∃ N₀ : ℕ, ∀ d n : ℕ, 0 < d → 0 < n → N₀ ≤ d * n →
      ∀ (Ω Key : Type) (_ : MeasurableSpace Ω) (P : Measure Ω) (_ : IsProbabilityMeasure P) (N : Type) (_ : MeasurableSpace N) (ν : Measure N) (scale : ℝ) (cfg : Cfg)
        (r : RandomRng Ω Key N n) (move : ℝ → N → V → V) (keys : ℕ → Fin d → Key) (x₀ : Ω → Fin d → Batch Unit n V) (s : State) (T : ℕ),
        Setup P ν μ cfg r move (Ψ θ) keys x₀ s T → Steady cfg s T → Separate P cfg.steps r keys x₀ T → ∀ k ≤ T,
        ∃ (loss : Ω → ℂ) (grad : Ω → ℝ), (∀ ω, sampledGradient "none" scale cfg r move (Ψ θ) g e keys x₀ s k ω = .ok (some (loss ω), some (grad ω))) ∧
          P {ω | ε < ‖loss ω - energy H (ψ θ)‖ ∨ ε < |grad ω - dE|} ≤ ENNReal.ofReal ε := by
  obtain ⟨dE, h1, h2⟩ := large_batch hs F he
  refine ⟨dE, h1, fun ε hε => ?_⟩
  obtain ⟨N₀, h3⟩ := h2 ε hε
  refine ⟨N₀, fun d n hd hn hN Ω Key _ P _ N _ ν scale cfg r move keys x₀ s T S hst I k hk => ?_⟩
  refine ⟨_, _, fun ω => sampledGradient_eq hd hn scale cfg r move (Ψ θ) g e keys x₀ s k ω, ?_⟩
  have hp := c141_sample S hst I k hk
  have := measure_toMeasurable (μ := Measure.pi fun _ : Fin d × Fin n => walkerLaw μ (Ψ θ)) {x | ε < ‖lossOf e x - energy H (ψ θ)‖ ∨ ε < |gradOf g e x - dE|}
  refine le_trans (measure_mono (t := (fun ω (w : Fin d × Fin n) => walkers cfg r move (Ψ θ) keys x₀ s ω k w.1 () w.2) ⁻¹' toMeasurable _ _) ?_)
    ((hp.measure_preimage (measurableSet_toMeasurable _ _).nullMeasurableSet).trans_le (this.trans_le (h3 d n hN)))
  exact fun ω hω => subset_toMeasurable _ _ hω

/-! ### Any start -/

/-- **C141.** Where burn-in works for one walker it works for the batch: from any starting places, after enough updates, whatever is computed from the whole batch with values
between 0 and 1 averages to within `ε` of what it would be for an independent sample from the squared wavefunction. -/
theorem c141_burn_in {ψ : V → ℂ} (hψ : Measurable ψ) [IsProbabilityMeasure (walkerLaw μ ψ)] {move : ℝ → N → V → V} {σ : ℝ} (hmv : Measurable fun p : V × N => move σ p.2 p.1)
    (hB : BurnsIn μ ν ψ move σ) (d n : ℕ) (y : Fin d → Fin n → V) (ε : ℝ) (hε : 0 < ε) :
    ∃ M : ℕ, ∀ (Ω Key : Type) (_ : MeasurableSpace Ω) (P : Measure Ω) (_ : IsProbabilityMeasure P) (cfg : Cfg) (r : RandomRng Ω Key N n)
      (keys : ℕ → Fin d → Key) (x₀ : Ω → Fin d → Batch Unit n V) (s : State) (T : ℕ), Run P ν σ cfg r keys x₀ s T → Separate P cfg.steps r keys x₀ T →
      (∀ a i, ∀ᵐ ω ∂P, x₀ ω a () i = y a i) → ∀ k ≤ T, M ≤ k * cfg.steps →
      ∀ F : (Fin d × Fin n → V) → ℝ, Measurable F → (∀ x, 0 ≤ F x) → (∀ x, F x ≤ 1) →
        |∫ ω, F (fun w => walkers cfg r move ψ keys x₀ s ω k w.1 () w.2) ∂P - ∫ x, F x ∂(Measure.pi fun _ => walkerLaw μ ψ)| ≤ ε := by
  set δ : ℝ := ε / (d * n + 1) with hδ
  have hδ0 : 0 < δ := by positivity
  choose M hM using fun a i => hB (y a i) δ hδ0
  refine ⟨∑ a, ∑ i, M a i, fun Ω Key _ P _ cfg r keys x₀ s T S I hx k hk hMk F hF h0 h1 => ?_⟩
  have hle : ∀ a i, M a i ≤ k * cfg.steps := fun a i =>
    ((Finset.single_le_sum (f := fun i => M a i) (fun _ _ => Nat.zero_le _) (Finset.mem_univ i)).trans
      (Finset.single_le_sum (f := fun a => ∑ i, M a i) (fun _ _ => Nat.zero_le _) (Finset.mem_univ a))).trans hMk
  have hm := fun w : Fin d × Fin n => run_walker_measurable hψ hmv S k hk w.1 w.2
  have hind := run_independent hψ hmv S I k hk
  rw [iIndepFun_iff_map_fun_eq_pi_map fun w => (hm w).aemeasurable] at hind
  have hpr : ∀ w : Fin d × Fin n, IsProbabilityMeasure (P.map fun ω => walkers cfg r move ψ keys x₀ s ω k w.1 () w.2) := fun w =>
    Measure.isProbabilityMeasure_map (hm w).aemeasurable
  have hint := integral_map (μ := P) (measurable_pi_iff.mpr hm).aemeasurable (f := F) hF.aestronglyMeasurable
  rw [← hint, hind]
  refine (products_near hδ0.le (fun w f hf hf1 => ?_) hF h0 h1).trans ?_
  · rw [integral_map (hm w).aemeasurable hf.aestronglyMeasurable]
    have := (hM w.1 w.2 Ω Key _ P inferInstance n d cfg r keys x₀ s T S k hk (hle _ _) w.1 w.2 (hx _ _)).2 f hf 1 hf1
    simpa using this
  · rw [Fintype.card_prod, Fintype.card_fin, Fintype.card_fin, hδ]
    push_cast
    rw [mul_div_assoc', div_le_iff₀ (by positivity)]
    nlinarith

/-- **C141.** Training steps from any start: with enough walkers, placed anywhere, and after enough updates, the loss and the gradient of a training step are as close to the
energy and its derivative as one likes, with a chance as near to certainty as one likes.  Neither the local energy nor the log-derivative need be bounded. -/
theorem c141_training {H : L2C μ →ₗ.[ℂ] L2C μ} (hs : Symmetric H) {ψ : ℝ → H.domain} {Ψ : ℝ → V → ℂ} {θ : ℝ} {g e : V → ℂ}
    (F : Family H ψ Ψ θ g) (he : IsLocalEnergy H (ψ θ) e) (hΨ : Measurable (Ψ θ)) (hg : Measurable g) (hem : Measurable e) {move : ℝ → N → V → V} {σ : ℝ}
    (hmv : Measurable fun p : V × N => move σ p.2 p.1) (hB : BurnsIn μ ν (Ψ θ) move σ) :
    ∃ dE : ℝ, HasDerivAt (fun t => energy H (ψ t)) dE θ ∧ ∀ ε : ℝ, 0 < ε → ∃ N₀ : ℕ, ∀ d n : ℕ, 0 < d → 0 < n → N₀ ≤ d * n → ∀ y : Fin d → Fin n → V,
      ∃ M : ℕ, ∀ (Ω Key : Type) (_ : MeasurableSpace Ω) (P : Measure Ω) (_ : IsProbabilityMeasure P) (scale : ℝ) (cfg : Cfg)
        (r : RandomRng Ω Key N n) (keys : ℕ → Fin d → Key) (x₀ : Ω → Fin d → Batch Unit n V) (s : State) (T : ℕ),
        Run P ν σ cfg r keys x₀ s T → Separate P cfg.steps r keys x₀ T → (∀ a i, ∀ᵐ ω ∂P, x₀ ω a () i = y a i) → ∀ k ≤ T, M ≤ k * cfg.steps →
        ∃ (loss : Ω → ℂ) (grad : Ω → ℝ), (∀ ω, sampledGradient "none" scale cfg r move (Ψ θ) g e keys x₀ s k ω = .ok (some (loss ω), some (grad ω))) ∧
          P.real {ω | ε < ‖loss ω - energy H (ψ θ)‖ ∨ ε < |grad ω - dE|} ≤ ε := by
  have hprob : IsProbabilityMeasure (walkerLaw μ (Ψ θ)) := by
    rw [← law_congr (F.values θ)]; exact Jaqmc.LossGrad.Grad.law_prob F.ne
  obtain ⟨dE, h1, h2⟩ := large_batch hs F he
  refine ⟨dE, h1, fun ε hε => ?_⟩
  obtain ⟨N₀, h3⟩ := h2 (ε / 2) (by positivity)
  refine ⟨N₀, fun d n hd hn hN y => ?_⟩
  obtain ⟨M, hM⟩ := c141_burn_in hΨ hmv hB d n y (ε / 2) (by positivity)
  refine ⟨M, fun Ω Key _ P _ scale cfg r keys x₀ s T S I hx k hk hMk => ?_⟩
  refine ⟨_, _, fun ω => sampledGradient_eq hd hn scale cfg r move (Ψ θ) g e keys x₀ s k ω, ?_⟩
  have hm := fun w : Fin d × Fin n => run_walker_measurable (ψ := Ψ θ) hΨ hmv S k hk w.1 w.2
  set Y : Ω → Fin d × Fin n → V := fun ω w => walkers cfg r move (Ψ θ) keys x₀ s ω k w.1 () w.2 with hY
  have mY : Measurable Y := measurable_pi_iff.mpr hm
  have mloss : Measurable fun x : Fin d × Fin n → V => lossOf e x :=
    (Finset.measurable_sum _ fun i _ => hem.comp (measurable_pi_apply i)).div_const _
  have mgrad : Measurable fun x : Fin d × Fin n → V => gradOf g e x := by
    have k1 : ∀ i, Measurable fun x : Fin d × Fin n → V => e (x i) := fun i => hem.comp (measurable_pi_apply i)
    have k2 : ∀ i, Measurable fun x : Fin d × Fin n → V => g (x i) := fun i => hg.comp (measurable_pi_apply i)
    have k3 : ∀ i, Measurable fun x : Fin d × Fin n → V => conj (g (x i)) := fun i => Complex.continuous_conj.measurable.comp (k2 i)
    have k4 : Measurable fun x : Fin d × Fin n → V => (∑ i, conj (g (x i)) * e (x i)) / ((d * n : ℕ) : ℂ) - ((∑ i, e (x i)) * ∑ i, g (x i)) / (((d * n : ℕ) : ℂ) ^ 2) :=
      ((Finset.measurable_sum _ fun i _ => (k3 i).mul (k1 i)).div_const _).sub (((Finset.measurable_sum _ fun i _ => k1 i).mul (Finset.measurable_sum _ fun i _ => k2 i)).div_const _)
    exact (Complex.measurable_re.comp k4).const_mul 2
  set A : Set (Fin d × Fin n → V) := {x | ε / 2 < ‖lossOf e x - energy H (ψ θ)‖ ∨ ε / 2 < |gradOf g e x - dE|} with hA
  have mA : MeasurableSet A := (measurableSet_lt measurable_const (mloss.sub_const _).norm).union (measurableSet_lt measurable_const (continuous_abs.measurable.comp (mgrad.sub_const _)))
  have hb := hM Ω Key _ P inferInstance cfg r keys x₀ s T S I hx k hk hMk (A.indicator fun _ => 1) (measurable_const.indicator mA)
    (fun x => Set.indicator_nonneg (fun _ _ => zero_le_one) x) (fun x => Set.indicator_le_self' (fun _ _ => zero_le_one) x)
  have e1 : ∫ ω, A.indicator (fun _ => (1 : ℝ)) (Y ω) ∂P = P.real (Y ⁻¹' A) := by
    have : (fun ω => A.indicator (fun _ => (1 : ℝ)) (Y ω)) = (Y ⁻¹' A).indicator fun _ => 1 := rfl
    rw [this, integral_indicator (mY mA)]
    simp
  have e2 : ∫ x, A.indicator (fun _ => (1 : ℝ)) x ∂(Measure.pi fun _ : Fin d × Fin n => walkerLaw μ (Ψ θ)) = (Measure.pi fun _ : Fin d × Fin n => walkerLaw μ (Ψ θ)).real A := by
    rw [integral_indicator mA]
    simp
  have hb' : |P.real (Y ⁻¹' A) - (Measure.pi fun _ : Fin d × Fin n => walkerLaw μ (Ψ θ)).real A| ≤ ε / 2 := by
    rw [← e1, ← e2]; exact hb
  have hs3 : (Measure.pi fun _ : Fin d × Fin n => walkerLaw μ (Ψ θ)).real A ≤ ε / 2 :=
    ENNReal.toReal_le_of_le_ofReal (by positivity) (h3 d n hN)
  have hfin : P.real (Y ⁻¹' A) ≤ ε := by have := (abs_le.mp hb').2; linarith
  refine le_trans (measureReal_mono fun ω hω => ?_) hfin
  rcases hω with h | h
  · exact Or.inl (by linarith)
  · exact Or.inr (by linarith)

/-! ### Molecules, solids and the sphere -/

open Jaqmc.Geometry Jaqmc.Geometry.Props.Sphere

theorem family_norm {H : L2C μ →ₗ.[ℂ] L2C μ} {ψ : ℝ → H.domain} {Ψ : ℝ → V → ℂ} {θ : ℝ} {g : V → ℂ} (F : Family H ψ Ψ θ g) :
    Integrable (fun x => ‖Ψ θ x‖ ^ 2) μ ∧ 0 < ∫ x, ‖Ψ θ x‖ ^ 2 ∂μ := by
  have h : (fun x => ‖(ψ θ : L2C μ) x‖ ^ 2) =ᵐ[μ] fun x => ‖Ψ θ x‖ ^ 2 := by
    filter_upwards [F.values θ] with x hx
    rw [hx]
  exact ⟨(Jaqmc.LossGrad.Grad.sq_int _).congr h, by rw [← integral_congr_ae h]; exact Jaqmc.LossGrad.Grad.Z_pos F.ne⟩

/-- What `c141_training` promises, for one system and one proposal. -/
def TrainsFromAnywhere (μ : Measure V) (ν : Measure N) (move : ℝ → N → V → V) (σ : ℝ) : Prop :=
  ∀ (H : L2C μ →ₗ.[ℂ] L2C μ), Symmetric H → ∀ (ψ : ℝ → H.domain) (Ψ : ℝ → V → ℂ) (θ : ℝ) (g e : V → ℂ), Family H ψ Ψ θ g → IsLocalEnergy H (ψ θ) e → (∀ᵐ x ∂μ, Ψ θ x ≠ 0) →
    Measurable (Ψ θ) → Measurable g → Measurable e →
    ∃ dE : ℝ, HasDerivAt (fun t => energy H (ψ t)) dE θ ∧ ∀ ε : ℝ, 0 < ε → ∃ N₀ : ℕ, ∀ d n : ℕ, 0 < d → 0 < n → N₀ ≤ d * n → ∀ y : Fin d → Fin n → V,
      ∃ M : ℕ, ∀ (Ω Key : Type) (_ : MeasurableSpace Ω) (P : Measure Ω) (_ : IsProbabilityMeasure P) (scale : ℝ) (cfg : Cfg)
        (r : RandomRng Ω Key N n) (keys : ℕ → Fin d → Key) (x₀ : Ω → Fin d → Batch Unit n V) (s : State) (T : ℕ),
        Run P ν σ cfg r keys x₀ s T → Separate P cfg.steps r keys x₀ T → (∀ a i, ∀ᵐ ω ∂P, x₀ ω a () i = y a i) → ∀ k ≤ T, M ≤ k * cfg.steps →
        ∃ (loss : Ω → ℂ) (grad : Ω → ℝ), (∀ ω, sampledGradient "none" scale cfg r move (Ψ θ) g e keys x₀ s k ω = .ok (some (loss ω), some (grad ω))) ∧
          P.real {ω | ε < ‖loss ω - energy H (ψ θ)‖ ∨ ε < |grad ω - dE|} ≤ ε

/-- **C141.** Molecules with the default proposal, any width but zero. -/
theorem c141_molecule {m : ℕ} {σ : ℝ} (hσ : σ ≠ 0) :
    TrainsFromAnywhere (volume : Measure (Fin m → ℝ)) (Measure.pi fun _ : Fin m => gaussianReal 0 1) gaussianMove σ := by
  intro H hs ψ Ψ θ g e F he _ hΨ hg hem
  obtain ⟨hi, hZ⟩ := family_norm F
  exact c141_training hs F he hΨ hg hem (by unfold gaussianMove; fun_prop) (c138_molecule hΨ hi hZ hσ).1

/-- **C141.** Solids with any invertible lattice. -/
theorem c141_solid {m c : ℕ} (L : Matrix (Fin c) (Fin c) ℝ) (hL : IsUnit L.det) {σ : ℝ} (hσ : σ ≠ 0) :
    TrainsFromAnywhere (cells m L) (Measure.pi fun _ : Fin m => Measure.pi fun _ : Fin c => gaussianReal 0 1) (pbcMoveAll L) σ := by
  intro H hs ψ Ψ θ g e F he _ hΨ hg hem
  obtain ⟨hi, hZ⟩ := family_norm F
  exact c141_training hs F he hΨ hg hem (pbcMoveAll_measurable L σ) (c138_solid L hL hΨ hi hZ hσ).1

open Jaqmc.Geometry.Area in
/-- **C141.** Quantum Hall systems on the sphere. -/
theorem c141_sphere {m : ℕ} {σ : ℝ} (hσ : σ ≠ 0) :
    TrainsFromAnywhere (Measure.pi fun _ : Fin m => area) (Measure.pi fun _ : Fin m => drawLaw) sphereMoveAll σ := by
  intro H hs ψ Ψ θ g e F he h0 hΨ hg hem
  obtain ⟨hi, hZ⟩ := family_norm F
  have hprob := walkerLaw_probability hi hZ
  exact c141_training hs F he hΨ hg hem (explores_sphere hΨ hZ h0 hσ).measurable (c138_sphere hΨ hi h0 hZ hσ).1

/-! ### Walkers that are copies of each other -/

/-- **C141.** Keys matter: if all walkers start in the same place and all draw the same numbers (every device with the same keys, every walker with the same noise) then, for a
real wavefunction, every gradient of every step is zero, however many walkers there are and whatever the derivative of the energy. -/
theorem c141_copies (hd : 0 < d) (hn : 0 < n) (scale : ℝ) {cfg : Cfg} {r : RandomRng Ω Key N n} {move : ℝ → N → V → V} {ψ g e : V → ℂ} (hg : ∀ x, (g x).im = 0)
    {keys : ℕ → Fin d → Key} {x₀ : Ω → Fin d → Batch Unit n V} {s : State} {T : ℕ} (hst : Steady cfg s T) (hu : ∀ k i ω, r.uniform k i ω ∈ Set.Ico (0 : ℝ) 1)
    (hk : ∀ t a b, keys t a = keys t b) (hr : ∀ k i j ω, r.noise k i ω = r.noise k j ω ∧ r.uniform k i ω = r.uniform k j ω)
    (hx : ∀ ω a b i j, x₀ ω a () i = x₀ ω b () j) (k : ℕ) (hkT : k ≤ T) (ω : Ω) :
    ∃ loss, sampledGradient "none" scale cfg r move ψ g e keys x₀ s k ω = .ok (some loss, some 0) := by
  refine ⟨lossOf e fun w : Fin d × Fin n => walkers cfg r move ψ keys x₀ s ω k w.1 () w.2, ?_⟩
  rw [sampledGradient_eq hd hn]
  have hw : ∀ w : Fin d × Fin n, walkers cfg r move ψ keys x₀ s ω k w.1 () w.2 = walkers cfg r move ψ keys x₀ s ω k ⟨0, hd⟩ () ⟨0, hn⟩ := by
    intro w
    rw [walkers_chain cfg r hu move ψ keys x₀ s T hst ω w.1 w.2 k hkT, walkers_chain cfg r hu move ψ keys x₀ s T hst ω ⟨0, hd⟩ ⟨0, hn⟩ k hkT,
      hx ω w.1 ⟨0, hd⟩ w.2 ⟨0, hn⟩]
    have h1 : (fun q => (r.noise q w.2 ω, r.uniform q w.2 ω)) = fun q => (r.noise q ⟨0, hn⟩ ω, r.uniform q ⟨0, hn⟩ ω) := by
      funext q
      rw [(hr q w.2 ⟨0, hn⟩ ω).1, (hr q w.2 ⟨0, hn⟩ ω).2]
    have h2 : (fun t => keys t w.1) = fun t => keys t ⟨0, hd⟩ := funext fun t => hk t _ _
    rw [h1, h2]
  simp_rw [hw]
  generalize walkers cfg r move ψ keys x₀ s ω k ⟨0, hd⟩ () ⟨0, hn⟩ = x
  have : gradOf g e (fun _ : Fin d × Fin n => x) = 0 := by
    unfold gradOf
    have hN : ((d * n : ℕ) : ℂ) ≠ 0 := by exact_mod_cast (Nat.mul_pos hd hn).ne'
    have hcj : conj (g x) = g x := Complex.conj_eq_iff_im.mpr (hg x)
    simp only [Finset.sum_const, Finset.card_univ, Fintype.card_prod, Fintype.card_fin, nsmul_eq_mul]
    rw [hcj]
    have : ((d * n : ℕ) : ℂ) * (g x * e x) / ((d * n : ℕ) : ℂ) - ((d * n : ℕ) : ℂ) * e x * (((d * n : ℕ) : ℂ) * g x) / ((d * n : ℕ) : ℂ) ^ 2 = 0 := by
      field_simp
      ring
    rw [this]
    simp
  rw [this]

/-! ### The hypotheses can be met -/

/-- **C141.** There are runs with separate walkers from any starting places, for any number of devices, walkers, updates and steps. -/
theorem c141_exists (ν : Measure N) [IsProbabilityMeasure ν] (cfg : Cfg) (s : State) (d n T : ℕ) (hst : Steady cfg s T) (y : Fin d → Fin n → V) [Nonempty V] :
    ∃ (Ω Key : Type) (_ : MeasurableSpace Ω) (P : Measure Ω) (_ : IsProbabilityMeasure P) (g : RandomRng Ω Key N n) (keys : ℕ → Fin d → Key),
      Run P ν s.stddev cfg g keys (fun _ a _ i => y a i) s T ∧ Separate P cfg.steps g keys (fun _ a _ i => y a i) T := by
  obtain ⟨x⟩ := ‹Nonempty V›
  have hp : IsProbabilityMeasure (walkerLaw (Measure.dirac x) fun _ : V => (1 : ℂ)) := by
    constructor
    unfold walkerLaw
    simp
  obtain ⟨Ω, Key, i1, P, hP, g, keys, x₀, S, I⟩ := c140_exists ν (Measure.dirac x) (fun _ : V => (1 : ℂ)) measurable_const (fun _ _ v => v) cfg s measurable_fst
    (fun f _ => rfl) d n T
  refine ⟨Ω, Key, i1, P, hP, g, keys, ⟨rfl, S.draws, fun a i => measurable_const, fun a i => indepFun_const_left _ _, S.fresh, hst⟩,
    I.draws, ?_, indepFun_const_left _ _, I.apart⟩
  exact one_by_one fun s w _ => indepFun_const_left _ _

/-- A molecule with the operator `⟨χ, ·⟩ χ` along the family `φ + t χ`, default settings, the walkers of two devices placed anywhere: runs exist and, given enough walkers
per device and enough updates before the step, most of them give nearly the right gradient. -/
example (φ χ : L2C (volume : Measure (Fin 3 → ℝ))) (hφ : ∀ᵐ x, φ x ≠ 0) (h0 : φ ≠ 0) (Φ Χ : (Fin 3 → ℝ) → ℂ) (hΦ : Measurable Φ) (hΧ : Measurable Χ)
    (h1 : φ =ᵐ[volume] Φ) (h2 : χ =ᵐ[volume] Χ) :
    ∃ dE : ℝ, ∃ n : ℕ, 0 < n ∧ ∀ y : Fin 2 → Fin n → Fin 3 → ℝ, ∃ M : ℕ, 
      ∃ (Ω Key : Type) (_ : MeasurableSpace Ω) (P : Measure Ω) (_ : IsProbabilityMeasure P) (r : RandomRng Ω Key (Fin 3 → ℝ) n) (keys : ℕ → Fin 2 → Key)
        (loss : Ω → ℂ) (grad : Ω → ℝ),
        (∀ ω, sampledGradient "none" 5 ⟨M + 1, 1 / 10, 100, 1 / 2, 55 / 100⟩ r gaussianMove Φ (fun x => Χ x / Φ x) (fun x => inner ℂ χ φ * (Χ x / Φ x)) keys
          (fun _ a _ i => y a i) (init ⟨M + 1, 1 / 10, 100, 1 / 2, 55 / 100⟩) 50 ω = .ok (some (loss ω), some (grad ω))) ∧
        P.real {ω | 1 / 100 < |grad ω - dE|} ≤ 1 / 100 := by
  have F0 := Jaqmc.LossGrad.Props.line_family φ χ hφ h0
  have e0 : ((Jaqmc.LossGrad.Props.line φ χ 0 : (Jaqmc.LossGrad.Props.rankOne χ).domain) : L2C (volume : Measure (Fin 3 → ℝ))) = φ := by
    show φ + ((0 : ℝ) : ℂ) • χ = φ
    simp
  have F : Family (Jaqmc.LossGrad.Props.rankOne χ) (Jaqmc.LossGrad.Props.line φ χ) (fun t x => Φ x + t * Χ x) 0 (fun x => Χ x / Φ x) := by
    refine ⟨fun t => ?_, F0.diff, F0.cont, ?_, F0.ne⟩
    · filter_upwards [F0.values t, h1, h2] with x k1 k2 k3
      rw [k1, k2, k3]
    · filter_upwards [F0.logDeriv, h1, h2] with x k1 k2 k3
      rw [k2, k3] at k1
      exact k1
  have he : IsLocalEnergy (Jaqmc.LossGrad.Props.rankOne χ) (Jaqmc.LossGrad.Props.line φ χ 0) (fun x => inner ℂ χ φ * (Χ x / Φ x)) := by
    filter_upwards [Jaqmc.LossGrad.Props.line_local φ χ hφ, h1, h2] with x k1 k2 k3
    rw [k1, k2, k3]
  have hΨ : (fun x => Φ x + ((0 : ℝ) : ℂ) * Χ x) = Φ := by funext x; simp
  have hne : ∀ᵐ x, (fun x => Φ x + ((0 : ℝ) : ℂ) * Χ x) x ≠ 0 := by
    rw [hΨ]
    filter_upwards [hφ, h1] with x k1 k2
    rw [← k2]; exact k1
  obtain ⟨dE, _, hacc⟩ := c141_molecule (m := 3) (σ := 1 / 10) (by norm_num) _ (Jaqmc.LossGrad.Props.rankOne_symmetric χ) _ _ 0 _ _ F he hne (by rw [hΨ]; exact hΦ)
    (hΧ.div hΦ) ((hΧ.div hΦ).const_mul _)
  rw [hΨ] at hacc
  obtain ⟨N₀, hN⟩ := hacc (1 / 100) (by norm_num)
  refine ⟨dE, N₀ + 1, Nat.succ_pos _, fun y => ?_⟩
  obtain ⟨M, hM⟩ := hN 2 (N₀ + 1) (by norm_num) (Nat.succ_pos _) (by omega) y
  refine ⟨M, ?_⟩
  obtain ⟨Ω, Key, i1, P, i2, r, keys, R, I⟩ := c141_exists (Measure.pi fun _ : Fin 3 => gaussianReal 0 1) ⟨M + 1, 1 / 10, 100, 1 / 2, 55 / 100⟩
    (init ⟨M + 1, 1 / 10, 100, 1 / 2, 55 / 100⟩) 2 (N₀ + 1) 50 (by left; intro k h1 h2; show (0 + k) % 100 ≠ 0; omega) y
  obtain ⟨loss, grad, h3, h4⟩ := hM Ω Key i1 P i2 5 _ r keys _ _ 50 R I (fun a i => Filter.Eventually.of_forall fun ω => rfl) 50 le_rfl (by show M ≤ 50 * (M + 1); omega)
  refine ⟨Ω, Key, i1, P, i2, r, keys, loss, grad, h3, ?_⟩
  exact (measureReal_mono fun ω hω => Or.inr hω).trans h4

end Jaqmc.Average.Props
