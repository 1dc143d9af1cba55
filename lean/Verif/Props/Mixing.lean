import Verif.Lemmas.CellCover
import Verif.Props.SphereMove
/-!
C137: burn-in works for solids: from any starting positions the walkers approach the distribution of the wavefunction, at a rate that does not depend on the start.
-/
namespace Jaqmc.Average.Props
open Jaqmc.Sampler Jaqmc.Sampler.Props Jaqmc.Average Jaqmc.Average.Spec Jaqmc.LossGrad.Spec Jaqmc.Geometry Jaqmc.Geometry.Props.Sphere
open MeasureTheory ProbabilityTheory
open scoped ENNReal Classical

variable {V N Ω Key : Type} {n d : ℕ} [MeasurableSpace V] [MeasurableSpace N] [MeasurableSpace Ω]

/-- The distribution is kept by one update. -/
theorem law_kept {μ : Measure V} {ν : Measure N} [IsProbabilityMeasure ν] {ψ : V → ℂ} (hψ : Measurable ψ) {move : N → V → V}
    (hmv : Measurable fun p : V × N => move p.2 p.1) (hr : Reversible μ ν move) (g : V → ℝ≥0∞) (hg : Measurable g) :
    ∫⁻ x, ∫⁻ q, g (wstep (fun y => ‖ψ y‖ ^ 2) move x q.1 q.2) ∂(ν.prod unif) ∂(walkerLaw μ ψ) = ∫⁻ x, g x ∂(walkerLaw μ ψ) := by
  have ha : Measurable fun y => ‖ψ y‖ ^ 2 := hψ.norm.pow_const 2
  have hw := wstep_measurable ha hmv
  have hgw : Measurable fun p : V × N × ℝ => g (wstep (fun y => ‖ψ y‖ ^ 2) move p.1 p.2.1 p.2.2) := hg.comp hw
  have hden : Measurable fun x => ENNReal.ofReal (‖ψ x‖ ^ 2 / ∫ y, ‖ψ y‖ ^ 2 ∂μ) := (ha.div_const _).ennreal_ofReal
  have hZ : 0 ≤ ∫ y, ‖ψ y‖ ^ 2 ∂μ := integral_nonneg fun y => by positivity
  unfold walkerLaw
  rw [lintegral_withDensity_eq_lintegral_mul _ hden hgw.lintegral_prod_right', lintegral_withDensity_eq_lintegral_mul _ hden hg]
  simp only [Pi.mul_apply]
  have es : ∀ x, ENNReal.ofReal (‖ψ x‖ ^ 2 / ∫ y, ‖ψ y‖ ^ 2 ∂μ) = ENNReal.ofReal (∫ y, ‖ψ y‖ ^ 2 ∂μ)⁻¹ * ENNReal.ofReal (‖ψ x‖ ^ 2) := by
    intro x
    rw [← ENNReal.ofReal_mul (by positivity), div_eq_inv_mul]
  simp_rw [es, mul_assoc]
  rw [lintegral_const_mul' _ _ ENNReal.ofReal_ne_top, lintegral_const_mul' _ _ ENNReal.ofReal_ne_top]
  congr 1
  rw [← invariant ha (fun x => by positivity) hmv hr hg]
  refine lintegral_congr fun x => ?_
  rw [lintegral_prod (fun q : N × ℝ => g (wstep (fun y => ‖ψ y‖ ^ 2) move x q.1 q.2)) (hgw.comp (measurable_const.prodMk measurable_id)).aemeasurable]

/-- A run of `T` sampling steps with width `σ` throughout, from walkers placed anywhere, independently of the draws. -/
structure Run (P : Measure Ω) (ν : Measure N) (σ : ℝ) (cfg : Cfg) (g : RandomRng Ω Key N n)
    (keys : ℕ → Fin d → Key) (x₀ : Ω → Fin d → Batch Unit n V) (s : State) (T : ℕ) : Prop where
  width : s.stddev = σ
  draws : ∀ i, Independent P ν (fun k => g.noise k i) (fun k => g.uniform k i)
  measurable : ∀ a i, Measurable fun ω => x₀ ω a () i
  indep : ∀ a i, IndepFun (fun ω => x₀ ω a () i) (fun ω k => (g.noise k i ω, g.uniform k i ω)) P
  fresh : ∀ a, (keysUsed g.split3 (fun t => keys t a) cfg.steps T).Nodup
  steady : Steady cfg s T

theorem pairs_length (split3 : Key → Key × Key × Key) (keys : ℕ → Key) (steps T : ℕ) : (pairs split3 keys steps T).length = T * steps := by
  unfold pairs
  simp [List.length_flatMap]

/-- **C137.** Wherever a proposal with fixed width can go everywhere and is as likely one way as the other, and the wavefunction is bounded: after `k` sampling steps the
average of any bounded quantity over a walker differs from its average in the distribution of the wavefunction by at most its range times `ρ` to the number of updates.
The rate does not depend on the starting places, the number of walkers or steps, or the quantity. -/
theorem c137_converge {μ : Measure V} {ν : Measure N} [IsProbabilityMeasure ν] {ψ : V → ℂ} (hψ : Measurable ψ) {A : ℝ} (hA : ∀ x, ‖ψ x‖ ≤ A)
    (hZ : 0 < ∫ y, ‖ψ y‖ ^ 2 ∂μ) [IsProbabilityMeasure (walkerLaw μ ψ)] {move : ℝ → N → V → V} {σ : ℝ} (hmv : Measurable fun p : V × N => move σ p.2 p.1)
    (hr : Reversible μ ν (move σ)) {c : ℝ≥0∞} (hc0 : c ≠ 0)
    (hc : ∀ x, ∀ f : V → ℝ≥0∞, Measurable f → c * ∫⁻ y, f y ∂μ ≤ ∫⁻ z, f (move σ z x) ∂ν) :
    ∃ ρ : ℝ, 0 ≤ ρ ∧ ρ < 1 ∧ ∀ (Ω Key : Type) (_ : MeasurableSpace Ω) (P : Measure Ω) (_ : IsProbabilityMeasure P) (n d : ℕ) (cfg : Cfg) (g : RandomRng Ω Key N n)
      (keys : ℕ → Fin d → Key) (x₀ : Ω → Fin d → Batch Unit n V) (s : State) (T : ℕ), Run P ν σ cfg g keys x₀ s T →
      ∀ k ≤ T, ∀ a i, ∀ (h : V → ℝ), Measurable h → ∀ m M, (∀ x, m ≤ h x ∧ h x ≤ M) →
        |∫ ω, h (walkers cfg g move ψ keys x₀ s ω k a () i) ∂P - ∫ x, h x ∂walkerLaw μ ψ| ≤ ρ ^ (k * cfg.steps) * (M - m) := by
  have ha : Measurable fun y => ‖ψ y‖ ^ 2 := hψ.norm.pow_const 2
  set Z := ∫ y, ‖ψ y‖ ^ 2 ∂μ with hZd
  have hB : ∀ x, ‖ψ x‖ ^ 2 ≤ A ^ 2 + 1 := fun x => by
    have := pow_le_pow_left₀ (norm_nonneg (ψ x)) (hA x) 2
    linarith
  have hB0 : 0 < A ^ 2 + 1 := by positivity
  set c' := min c 1 with hc'
  have hc'0 : c' ≠ 0 := by rw [hc']; exact (lt_min (pos_iff_ne_zero.mpr hc0) one_pos).ne'
  have hc't : c' ≠ ∞ := ne_top_of_le_ne_top ENNReal.one_ne_top (min_le_right _ _)
  set ε := c'.toReal * (Z / (A ^ 2 + 1)) with hε
  have hε0 : 0 < ε := mul_pos (ENNReal.toReal_pos hc'0 hc't) (div_pos hZ hB0)
  have hcov : ∀ x, ∀ f : V → ℝ≥0∞, Measurable f →
      ENNReal.ofReal ε * ∫⁻ y, f y ∂(walkerLaw μ ψ) ≤ ∫⁻ q, f (wstep (fun y => ‖ψ y‖ ^ 2) (move σ) x q.1 q.2) ∂(ν.prod unif) := by
    intro x f hf
    refine le_trans (le_of_eq ?_) (update_covers (c := c') ha (fun x => by positivity) hB0 hB hmv x
      (fun f hf => (mul_le_mul_left (min_le_left _ _) _).trans (hc x f hf)) f hf)
    have hden : Measurable fun x => ENNReal.ofReal (‖ψ x‖ ^ 2 / Z) := (ha.div_const _).ennreal_ofReal
    unfold walkerLaw
    rw [lintegral_withDensity_eq_lintegral_mul _ hden hf]
    simp only [Pi.mul_apply]
    rw [hε, ENNReal.ofReal_mul ENNReal.toReal_nonneg, ENNReal.ofReal_toReal hc't, mul_assoc]
    congr 1
    have m1 : Measurable fun y => ENNReal.ofReal (‖ψ y‖ ^ 2 / Z) * f y := hden.mul hf
    rw [← lintegral_const_mul _ m1]
    refine lintegral_congr fun y => ?_
    rw [← mul_assoc, ← ENNReal.ofReal_mul (by positivity)]
    congr 2
    field_simp
  have hV : Nonempty V := nonempty_of_isProbabilityMeasure (walkerLaw μ ψ)
  have hN : Nonempty N := nonempty_of_isProbabilityMeasure ν
  have hε1 : ε ≤ 1 := by
    obtain ⟨x⟩ := hV
    have := hcov x (fun _ => 1) measurable_const
    simp only [lintegral_const, measure_univ, mul_one] at this
    exact ENNReal.ofReal_le_one.mp this
  refine ⟨1 - ε, by linarith, by linarith, ?_⟩
  intro Ω Key _ P _ n d cfg g keys x₀ s T S k hk a i h hh m M hb
  have hu : ∀ k i ω, g.uniform k i ω ∈ Set.Ico (0 : ℝ) 1 := fun k i ω => (S.draws i).range k ω
  have hdr : Measurable fun ω => fun k => (g.noise k i ω, g.uniform k i ω) := measurable_pi_iff.mpr (S.draws i).measurable
  simp_rw [walkers_chain cfg g hu move ψ keys x₀ s T S.steady _ a i k hk, S.width]
  set ks := pairs g.split3 (fun t => keys t a) cfg.steps k with hks
  have hlen : ks.length = k * cfg.steps := pairs_length _ _ _ _
  have hnd : (allKeys ks).Nodup := by rw [hks, allKeys_pairs]; exact keysUsed_nodup (S.fresh a) hk
  have hmix : ∀ x, |∫ ω, h (chain (fun y => ‖ψ y‖ ^ 2) (move σ) (fun k => (g.noise k i ω, g.uniform k i ω)) x ks) ∂P - ∫ x, h x ∂walkerLaw μ ψ| ≤
      (1 - ε) ^ (k * cfg.steps) * (M - m) := fun x => by
    have := chain_mixes (S.draws i) ha hmv hε0.le hε1 hcov (law_kept hψ hmv hr) ks hnd x hh hb
    rwa [hlen] at this
  have hF : Measurable fun p : V × (Key → N × ℝ) => h (chain (fun y => ‖ψ y‖ ^ 2) (move σ) p.2 p.1 ks) := hh.comp (chain_measurable ha hmv ks)
  have hmap := (indepFun_iff_map_prod_eq_prod_map_map (S.measurable a i).aemeasurable hdr.aemeasurable).mp (S.indep a i)
  have hpd := Measure.isProbabilityMeasure_map (μ := P) hdr.aemeasurable
  have hpx := Measure.isProbabilityMeasure_map (μ := P) (S.measurable a i).aemeasurable
  have e1 : ∫ ω, h (chain (fun y => ‖ψ y‖ ^ 2) (move σ) (fun k => (g.noise k i ω, g.uniform k i ω)) (x₀ ω a () i) ks) ∂P =
      ∫ x, ∫ ω, h (chain (fun y => ‖ψ y‖ ^ 2) (move σ) (fun k => (g.noise k i ω, g.uniform k i ω)) x ks) ∂P ∂(P.map fun ω => x₀ ω a () i) := by
    have := integral_map (μ := P) ((S.measurable a i).prodMk hdr).aemeasurable hF.aestronglyMeasurable
    rw [← this, hmap, integral_prod _ (bounded_integrable _ hF fun p => hb _)]
    refine integral_congr_ae (Filter.Eventually.of_forall fun x => ?_)
    exact integral_map hdr.aemeasurable (hF.comp measurable_prodMk_left).aestronglyMeasurable
  rw [e1]
  have hG : Measurable fun x => ∫ ω, h (chain (fun y => ‖ψ y‖ ^ 2) (move σ) (fun k => (g.noise k i ω, g.uniform k i ω)) x ks) ∂P := by
    have h1 : Measurable fun p : V × Ω => h (chain (fun y => ‖ψ y‖ ^ 2) (move σ) (fun k => (g.noise k i p.2, g.uniform k i p.2)) p.1 ks) :=
      hF.comp (measurable_fst.prodMk (hdr.comp measurable_snd))
    exact h1.stronglyMeasurable.integral_prod_right'.measurable
  have hbet := average_between (P.map fun ω => x₀ ω a () i) hG (m := ∫ x, h x ∂walkerLaw μ ψ - (1 - ε) ^ (k * cfg.steps) * (M - m))
    (M := ∫ x, h x ∂walkerLaw μ ψ + (1 - ε) ^ (k * cfg.steps) * (M - m)) fun x => by
      have := abs_le.mp (hmix x)
      constructor <;> linarith
  rw [abs_le]
  constructor <;> linarith [hbet.1, hbet.2]

/-! ### What is reported after starting anywhere -/

theorem run_walker_measurable {ν : Measure N} {P : Measure Ω} {ψ : V → ℂ} (hψ : Measurable ψ) {move : ℝ → N → V → V} {σ : ℝ}
    (hmv : Measurable fun p : V × N => move σ p.2 p.1) {cfg : Cfg} {g : RandomRng Ω Key N n}
    {keys : ℕ → Fin d → Key} {x₀ : Ω → Fin d → Batch Unit n V} {s : State} {T : ℕ} (S : Run P ν σ cfg g keys x₀ s T) (k : ℕ) (hk : k ≤ T) (a : Fin d) (i : Fin n) :
    Measurable fun ω => walkers cfg g move ψ keys x₀ s ω k a () i := by
  have hu : ∀ k i ω, g.uniform k i ω ∈ Set.Ico (0 : ℝ) 1 := fun k i ω => (S.draws i).range k ω
  have hdr : Measurable fun ω => fun k => (g.noise k i ω, g.uniform k i ω) := measurable_pi_iff.mpr (S.draws i).measurable
  simp_rw [walkers_chain cfg g hu move ψ keys x₀ s T S.steady _ a i k hk, S.width]
  have hc := chain_measurable (hψ.norm.pow_const 2) hmv (pairs g.split3 (fun t => keys t a) cfg.steps k)
  exact hc.comp ((S.measurable a i).prodMk hdr)

theorem geometric_le {ρ : ℝ} (h0 : 0 ≤ ρ) (h1 : ρ < 1) {q : ℕ} (hq : 0 < q) (T : ℕ) : ∑ t ∈ Finset.range T, ρ ^ ((t + 1) * q) ≤ 1 / (1 - ρ) := by
  have h : ∑ t ∈ Finset.range T, ρ ^ ((t + 1) * q) ≤ ∑ t ∈ Finset.range T, ρ ^ t := by
    refine Finset.sum_le_sum fun t _ => pow_le_pow_of_le_one h0 h1.le ?_
    nlinarith
  refine h.trans ?_
  have hp : 0 < 1 - ρ := by linarith
  rw [geom_sum_eq h1.ne, le_div_iff₀ hp, ← neg_sub 1 ρ, ← neg_sub 1 (ρ ^ T), neg_div_neg_eq, div_mul_cancel₀ _ hp.ne']
  have := pow_nonneg h0 T
  linarith

/-- If averages of bounded quantities are near, so is the average of the reported energy. -/
theorem reported_near {μ : Measure V} {ν : Measure N} {ψ : V → ℂ} (hψ : Measurable ψ) [IsProbabilityMeasure (walkerLaw μ ψ)] {move : ℝ → N → V → V} {σ : ℝ}
    (hmv : Measurable fun p : V × N => move σ p.2 p.1) {P : Measure Ω} [IsProbabilityMeasure P] {cfg : Cfg} {g : RandomRng Ω Key N n} {keys : ℕ → Fin d → Key}
    {x₀ : Ω → Fin d → Batch Unit n V} {s : State} {T : ℕ} (S : Run P ν σ cfg g keys x₀ s T) (hd : 0 < d) (hn : 0 < n) (hT : 0 < T) {δ : ℕ → ℝ}
    (hA : ∀ k ≤ T, ∀ a i, ∀ (h : V → ℝ), Measurable h → ∀ B, (∀ x, |h x| ≤ B) →
        |∫ ω, h (walkers cfg g move ψ keys x₀ s ω k a () i) ∂P - ∫ x, h x ∂walkerLaw μ ψ| ≤ δ k * B)
    {H : L2C μ →ₗ.[ℂ] L2C μ} (hs : Symmetric H) (φ : H.domain) (hφ0 : (φ : L2C μ) ≠ 0) (hφ : (φ : L2C μ) =ᵐ[μ] ψ) {e : V → ℂ} (he : IsLocalEnergy H φ e)
    (hem : Measurable e) {B : ℝ} (hB : ∀ x, ‖e x‖ ≤ B) :
    ∃ r : Ω → ℂ, (∀ ω, reported cfg g move ψ e keys x₀ s T ω = some (r ω)) ∧ Integrable r P ∧ ‖∫ ω, r ω ∂P - (energy H φ : ℂ)‖ ≤ (∑ t ∈ Finset.range T, δ (t + 1)) * (2 * B) / T := by
  refine ⟨_, fun ω => reported_eq hd hn T hT cfg g move ψ e keys x₀ s ω, ?_⟩
  obtain ⟨hi, hm⟩ := local_mean hs φ hφ0 he
  rw [law_congr hφ] at hi hm
  have hB0 : 0 ≤ B := by
    obtain ⟨x⟩ := nonempty_of_isProbabilityMeasure (walkerLaw μ ψ)
    exact (norm_nonneg _).trans (hB x)
  have hw : ∀ t ∈ Finset.range T, ∀ a i, Integrable (fun ω => e (walkers cfg g move ψ keys x₀ s ω (t + 1) a () i)) P ∧
      ‖∫ ω, e (walkers cfg g move ψ keys x₀ s ω (t + 1) a () i) ∂P - (energy H φ : ℂ)‖ ≤ δ (t + 1) * (2 * B) := by
    intro t ht a i
    have hk : t + 1 ≤ T := Finset.mem_range.mp ht
    have hmeas := run_walker_measurable hψ hmv S (t + 1) hk a i
    have hint : Integrable (fun ω => e (walkers cfg g move ψ keys x₀ s ω (t + 1) a () i)) P :=
      Integrable.of_bound (hem.comp hmeas).aestronglyMeasurable B (Filter.Eventually.of_forall fun ω => hB _)
    refine ⟨hint, ?_⟩
    have hre := hA (t + 1) hk a i (fun x => (e x).re) (Complex.measurable_re.comp hem) B fun x => (Complex.abs_re_le_norm _).trans (hB x)
    have him := hA (t + 1) hk a i (fun x => (e x).im) (Complex.measurable_im.comp hem) B fun x => (Complex.abs_im_le_norm _).trans (hB x)
    have r1 := integral_re (𝕜 := ℂ) hint
    have r2 := integral_im (𝕜 := ℂ) hint
    have r3 := integral_re (𝕜 := ℂ) hi
    have r4 := integral_im (𝕜 := ℂ) hi
    simp only [RCLike.re_eq_complex_re, RCLike.im_eq_complex_im] at r1 r2 r3 r4
    rw [r1, r3, hm, ← Complex.sub_re] at hre
    rw [r2, r4, hm, ← Complex.sub_im] at him
    refine (Complex.norm_le_abs_re_add_abs_im _).trans ?_
    linarith
  have hia : ∀ t ∈ Finset.range T, ∀ a, Integrable (fun ω => (∑ i, e (walkers cfg g move ψ keys x₀ s ω (t + 1) a () i)) / (n : ℂ)) P := fun t ht a =>
    (integrable_finsetSum _ fun i _ => (hw t ht a i).1).div_const _
  have hid : ∀ t ∈ Finset.range T, Integrable (fun ω => (∑ a, (∑ i, e (walkers cfg g move ψ keys x₀ s ω (t + 1) a () i)) / (n : ℂ)) / (d : ℂ)) P := fun t ht =>
    (integrable_finsetSum _ fun a _ => hia t ht a).div_const _
  refine ⟨(integrable_finsetSum _ hid).div_const _, ?_⟩
  have hd' : (d : ℂ) ≠ 0 := by exact_mod_cast hd.ne'
  have hn' : (n : ℂ) ≠ 0 := by exact_mod_cast hn.ne'
  have hT' : (T : ℂ) ≠ 0 := by exact_mod_cast hT.ne'
  have hTr : (0 : ℝ) < T := by exact_mod_cast hT
  have hdr : (0 : ℝ) < d := by exact_mod_cast hd
  have hnr : (0 : ℝ) < n := by exact_mod_cast hn
  rw [integral_div, integral_finsetSum _ hid]
  have hstep : ∀ t ∈ Finset.range T, ‖∫ ω, (∑ a, (∑ i, e (walkers cfg g move ψ keys x₀ s ω (t + 1) a () i)) / (n : ℂ)) / (d : ℂ) ∂P - (energy H φ : ℂ)‖ ≤
      δ (t + 1) * (2 * B) := by
    intro t ht
    have e1 : ∫ ω, (∑ a, (∑ i, e (walkers cfg g move ψ keys x₀ s ω (t + 1) a () i)) / (n : ℂ)) / (d : ℂ) ∂P - (energy H φ : ℂ) =
        (∑ a : Fin d, ∑ i : Fin n, (∫ ω, e (walkers cfg g move ψ keys x₀ s ω (t + 1) a () i) ∂P - (energy H φ : ℂ))) / (n * d) := by
      rw [integral_div, integral_finsetSum _ fun a _ => hia t ht a]
      simp_rw [integral_div, integral_finsetSum _ fun i _ => (hw t ht _ i).1, Finset.sum_sub_distrib, Finset.sum_const, Finset.card_univ, Fintype.card_fin, ← Finset.sum_div]
      simp only [nsmul_eq_mul]
      field_simp
    rw [e1, norm_div, norm_mul, Complex.norm_natCast, Complex.norm_natCast, div_le_iff₀ (by positivity)]
    refine (norm_sum_le _ _).trans ?_
    have : ∀ a ∈ (Finset.univ : Finset (Fin d)), ‖∑ i : Fin n, (∫ ω, e (walkers cfg g move ψ keys x₀ s ω (t + 1) a () i) ∂P - (energy H φ : ℂ))‖ ≤
        n * (δ (t + 1) * (2 * B)) := by
      intro a _
      refine (norm_sum_le _ _).trans ((Finset.sum_le_sum fun i _ => (hw t ht a i).2).trans ?_)
      simp
    refine (Finset.sum_le_sum this).trans (le_of_eq ?_)
    simp
    ring
  have e2 : (∑ t ∈ Finset.range T, ∫ ω, (∑ a, (∑ i, e (walkers cfg g move ψ keys x₀ s ω (t + 1) a () i)) / (n : ℂ)) / (d : ℂ) ∂P) / (T : ℂ) - (energy H φ : ℂ) =
      (∑ t ∈ Finset.range T, (∫ ω, (∑ a, (∑ i, e (walkers cfg g move ψ keys x₀ s ω (t + 1) a () i)) / (n : ℂ)) / (d : ℂ) ∂P - (energy H φ : ℂ))) / T := by
    rw [Finset.sum_sub_distrib, Finset.sum_const, Finset.card_range, nsmul_eq_mul]
    field_simp
  rw [e2, norm_div, Complex.norm_natCast]
  refine div_le_div_of_nonneg_right ?_ hTr.le
  refine (norm_sum_le _ _).trans ((Finset.sum_le_sum hstep).trans ?_)
  rw [← Finset.sum_mul]

/-- If averages of bounded quantities approach, so does the average of the reported energy. -/
theorem reported_approaches {μ : Measure V} {ν : Measure N} {ψ : V → ℂ} (hψ : Measurable ψ) [IsProbabilityMeasure (walkerLaw μ ψ)] {move : ℝ → N → V → V} {σ : ℝ}
    (hmv : Measurable fun p : V × N => move σ p.2 p.1) {P : Measure Ω} [IsProbabilityMeasure P] {cfg : Cfg} (hq : 0 < cfg.steps) {g : RandomRng Ω Key N n} {keys : ℕ → Fin d → Key}
    {x₀ : Ω → Fin d → Batch Unit n V} {s : State} {T : ℕ} (S : Run P ν σ cfg g keys x₀ s T) (hd : 0 < d) (hn : 0 < n) (hT : 0 < T) {ρ : ℝ} (h0 : 0 ≤ ρ) (h1 : ρ < 1)
    (hA : ∀ k ≤ T, ∀ a i, ∀ (h : V → ℝ), Measurable h → ∀ m M, (∀ x, m ≤ h x ∧ h x ≤ M) →
        |∫ ω, h (walkers cfg g move ψ keys x₀ s ω k a () i) ∂P - ∫ x, h x ∂walkerLaw μ ψ| ≤ ρ ^ (k * cfg.steps) * (M - m))
    {H : L2C μ →ₗ.[ℂ] L2C μ} (hs : Symmetric H) (φ : H.domain) (hφ0 : (φ : L2C μ) ≠ 0) (hφ : (φ : L2C μ) =ᵐ[μ] ψ) {e : V → ℂ} (he : IsLocalEnergy H φ e)
    (hem : Measurable e) {B : ℝ} (hB : ∀ x, ‖e x‖ ≤ B) :
    ∃ r : Ω → ℂ, (∀ ω, reported cfg g move ψ e keys x₀ s T ω = some (r ω)) ∧ Integrable r P ∧ ‖∫ ω, r ω ∂P - (energy H φ : ℂ)‖ ≤ 4 * B / (1 - ρ) / T := by
  have hB0 : 0 ≤ B := by
    obtain ⟨x⟩ := nonempty_of_isProbabilityMeasure (walkerLaw μ ψ)
    exact (norm_nonneg _).trans (hB x)
  have hTr : (0 : ℝ) < T := by exact_mod_cast hT
  obtain ⟨r, hr, hi, hle⟩ := reported_near hψ hmv S hd hn hT (δ := fun k => 2 * ρ ^ (k * cfg.steps)) (fun k hk a i h hh B hb => by
    have := hA k hk a i h hh (-B) B fun x => abs_le.mp (hb x)
    linarith) hs φ hφ0 hφ he hem hB
  refine ⟨r, hr, hi, hle.trans ?_⟩
  refine div_le_div_of_nonneg_right ?_ hTr.le
  rw [← Finset.mul_sum]
  have hg := geometric_le h0 h1 hq T
  have h4 : 4 * B / (1 - ρ) = 1 / (1 - ρ) * (4 * B) := by ring
  have h5 := mul_le_mul_of_nonneg_right hg (by positivity : 0 ≤ 4 * B)
  rw [h4]
  linarith

/-! ### Solids -/

theorem cells_finite (m : ℕ) {c : ℕ} (L : Matrix (Fin c) (Fin c) ℝ) : IsFiniteMeasure (cells m L) := by
  have hb : {p : Fin c → ℝ | Geometry.Spec.InCell L p} ⊆ Metric.closedBall 0 (Geometry.Cell.extent L) := by
    intro p hp
    rw [mem_closedBall_zero_iff, pi_norm_le_iff_of_nonneg ?_]
    · exact fun k => Geometry.Cell.cell_bound L hp k
    · unfold Geometry.Cell.extent
      positivity
  have hf : volume {p : Fin c → ℝ | Geometry.Spec.InCell L p} < ∞ := (measure_mono hb).trans_lt (isCompact_closedBall _ _).measure_lt_top
  have : IsFiniteMeasure ((volume : Measure (Fin c → ℝ)).restrict {p : Fin c → ℝ | Geometry.Spec.InCell L p}) := ⟨by rwa [Measure.restrict_apply_univ]⟩
  unfold cells
  infer_instance

/-- A bounded wavefunction that does not vanish almost everywhere in the cell has a distribution. -/
theorem cells_law {m c : ℕ} (L : Matrix (Fin c) (Fin c) ℝ) {ψ : (Fin m → Fin c → ℝ) → ℂ} (hψ : Measurable ψ) {A : ℝ} (hA : ∀ x, ‖ψ x‖ ≤ A)
    (hZ : 0 < ∫ y, ‖ψ y‖ ^ 2 ∂cells m L) : IsProbabilityMeasure (walkerLaw (cells m L) ψ) := by
  have := cells_finite m L
  have hi : Integrable (fun y => ‖ψ y‖ ^ 2) (cells m L) := by
    refine Integrable.of_bound (hψ.norm.pow_const 2).aestronglyMeasurable (A ^ 2) (Filter.Eventually.of_forall fun x => ?_)
    rw [Real.norm_of_nonneg (by positivity)]
    exact pow_le_pow_left₀ (norm_nonneg _) (hA x) 2
  constructor
  unfold walkerLaw
  rw [withDensity_apply _ MeasurableSet.univ, Measure.restrict_univ,
    ← ofReal_integral_eq_lintegral_ofReal (hi.div_const _) (Filter.Eventually.of_forall fun x => by positivity),
    integral_div, div_self hZ.ne', ENNReal.ofReal_one]

/-- **C137.** Burn-in of a solid.  For a lattice, a bounded wavefunction that does not vanish almost everywhere, and a proposal width other than zero, there is a rate `ρ < 1` such that,
wherever the walkers start: after `k` sampling steps the chance to find a walker in any region of the cell, and the average of any bounded quantity, are off by at most `ρ` to the
number of updates (times the quantity's range); and the average of the energy an evaluation of `T` steps reports is off by at most a constant over `T`, if the local energy is bounded. -/
theorem c137_cell {m c : ℕ} (L : Matrix (Fin c) (Fin c) ℝ) (hL : IsUnit L.det) {ψ : (Fin m → Fin c → ℝ) → ℂ} (hψ : Measurable ψ) {A : ℝ} (hA : ∀ x, ‖ψ x‖ ≤ A)
    (hZ : 0 < ∫ y, ‖ψ y‖ ^ 2 ∂cells m L) {σ : ℝ} (hσ : σ ≠ 0) :
    ∃ ρ : ℝ, 0 ≤ ρ ∧ ρ < 1 ∧ ∀ (Ω Key : Type) (_ : MeasurableSpace Ω) (P : Measure Ω) (_ : IsProbabilityMeasure P) (n d : ℕ) (cfg : Cfg)
      (g : RandomRng Ω Key (Fin m → Fin c → ℝ) n) (keys : ℕ → Fin d → Key) (x₀ : Ω → Fin d → Batch Unit n (Fin m → Fin c → ℝ)) (s : State) (T : ℕ),
      Run P (Measure.pi fun _ : Fin m => Measure.pi fun _ : Fin c => gaussianReal 0 1) σ cfg g keys x₀ s T →
      (∀ k ≤ T, ∀ a i, ∀ R : Set (Fin m → Fin c → ℝ), MeasurableSet R →
        |P.real {ω | walkers cfg g (pbcMoveAll L) ψ keys x₀ s ω k a () i ∈ R} - (walkerLaw (cells m L) ψ).real R| ≤ ρ ^ (k * cfg.steps)) ∧
      (∀ k ≤ T, ∀ a i, ∀ (h : (Fin m → Fin c → ℝ) → ℝ), Measurable h → ∀ lo hi, (∀ x, lo ≤ h x ∧ h x ≤ hi) →
        |∫ ω, h (walkers cfg g (pbcMoveAll L) ψ keys x₀ s ω k a () i) ∂P - ∫ x, h x ∂walkerLaw (cells m L) ψ| ≤ ρ ^ (k * cfg.steps) * (hi - lo)) ∧
      (0 < cfg.steps → 0 < d → 0 < n → 0 < T → ∀ (H : L2C (cells m L) →ₗ.[ℂ] L2C (cells m L)), Symmetric H → ∀ φ : H.domain, (φ : L2C (cells m L)) ≠ 0 →
        (φ : L2C (cells m L)) =ᵐ[cells m L] ψ → ∀ (e : (Fin m → Fin c → ℝ) → ℂ), IsLocalEnergy H φ e → Measurable e → ∀ B, (∀ x, ‖e x‖ ≤ B) →
        ∃ r : Ω → ℂ, (∀ ω, reported cfg g (pbcMoveAll L) ψ e keys x₀ s T ω = some (r ω)) ∧ Integrable r P ∧ ‖∫ ω, r ω ∂P - (energy H φ : ℂ)‖ ≤ 4 * B / (1 - ρ) / T) := by
  have hp := cells_law L hψ hA hZ
  obtain ⟨ρ, h0, h1, h⟩ := c137_converge (ν := Measure.pi fun _ : Fin m => Measure.pi fun _ : Fin c => gaussianReal 0 1) hψ hA hZ (move := pbcMoveAll L) (σ := σ)
    (pbcMoveAll_measurable L σ) (c136_cell L hL σ) (pow_ne_zero m (Geometry.Cell.share_pos L hσ)) (fun x f hf => Geometry.Cell.cells_cover L hL hσ x f hf)
  refine ⟨ρ, h0, h1, ?_⟩
  intro Ω Key _ P _ n d cfg g keys x₀ s T S
  have hmain := h Ω Key _ P inferInstance n d cfg g keys x₀ s T S
  refine ⟨?_, hmain, ?_⟩
  · intro k hk a i R hR
    have := hmain k hk a i (R.indicator fun _ => 1) (measurable_const.indicator hR) 0 1 fun x => by
      by_cases hx : x ∈ R <;> simp [hx]
    rw [sub_zero, mul_one] at this
    have hw := run_walker_measurable hψ (pbcMoveAll_measurable L σ) S k hk a i
    have e1 : ∫ ω, R.indicator (fun _ => (1 : ℝ)) (walkers cfg g (pbcMoveAll L) ψ keys x₀ s ω k a () i) ∂P =
        P.real {ω | walkers cfg g (pbcMoveAll L) ψ keys x₀ s ω k a () i ∈ R} := by
      have : (fun ω => R.indicator (fun _ => (1 : ℝ)) (walkers cfg g (pbcMoveAll L) ψ keys x₀ s ω k a () i)) =
          ({ω | walkers cfg g (pbcMoveAll L) ψ keys x₀ s ω k a () i ∈ R}).indicator fun _ => 1 := by
        funext ω
        rfl
      have hwR : MeasurableSet {ω | walkers cfg g (pbcMoveAll L) ψ keys x₀ s ω k a () i ∈ R} := hw hR
      rw [this, integral_indicator_const _ hwR, smul_eq_mul, mul_one]
    have e2 : ∫ x, R.indicator (fun _ => (1 : ℝ)) x ∂walkerLaw (cells m L) ψ = (walkerLaw (cells m L) ψ).real R := by
      rw [integral_indicator_const _ hR, smul_eq_mul, mul_one]
    rwa [e1, e2] at this
  · intro hq hd hn hT H hs φ hφ0 hφ e he hem B hB
    exact reported_approaches hψ (pbcMoveAll_measurable L σ) hq S hd hn hT h0 h1 hmain hs φ hφ0 hφ he hem hB

/-- **C137.** Such runs exist from any starting places, for any number of devices, walkers and steps. -/
theorem c137_exists (ν : Measure N) [IsProbabilityMeasure ν] (cfg : Cfg) (s : State) (d n T : ℕ) (hst : Steady cfg s T) (y : Fin d → Fin n → V) [Nonempty V] :
    ∃ (Ω Key : Type) (_ : MeasurableSpace Ω) (P : Measure Ω) (_ : IsProbabilityMeasure P) (g : RandomRng Ω Key N n) (keys : ℕ → Fin d → Key),
      Run P ν s.stddev cfg g keys (fun _ a _ i => y a i) s T := by
  obtain ⟨x⟩ := ‹Nonempty V›
  have hp : IsProbabilityMeasure (walkerLaw (Measure.dirac x) fun _ : V => (1 : ℂ)) := by
    constructor
    unfold walkerLaw
    simp
  obtain ⟨P, hP, g, keys, x₀, S⟩ := c135_exists ν (Measure.dirac x) (fun _ : V => (1 : ℂ)) measurable_const (fun _ _ v => v) cfg s measurable_fst
    (fun f _ => rfl) d n T
  exact ⟨_, _, _, P, hP, g, keys, rfl, S.draws, fun a i => measurable_const, fun a i => indepFun_const_left _ _, S.fresh, hst⟩

theorem wrap_in_cell {c : ℕ} (L : Matrix (Fin c) (Fin c) ℝ) (hL : IsUnit L.det) {x : Fin c → ℝ} (h : Geometry.Spec.InCell L x) : wrap L x = x := by
  obtain ⟨q, hq, hx⟩ := h
  have h1 : Matrix.vecMul x L⁻¹ = q := by
    have : x = Matrix.vecMul q L := by funext k; rw [hx]; rfl
    rw [this, Matrix.vecMul_vecMul, Matrix.mul_nonsing_inv _ hL, Matrix.vecMul_one]
  unfold wrap
  rw [h1]
  have : (fun i => pmod (q i) 1) = q := by
    funext i
    rw [Geometry.Cell.pmod_one]
    exact Int.fract_eq_self.mpr (hq i)
  rw [this]
  funext k
  rw [hx]
  rfl

/-- **C137.** The condition on the width is needed: with width zero a walker never leaves the place in the cell where it starts. -/
theorem c137_zero {m c : ℕ} (L : Matrix (Fin c) (Fin c) ℝ) (hL : IsUnit L.det) (ψ : (Fin m → Fin c → ℝ) → ℂ) {P : Measure Ω}
    {cfg : Cfg} {g : RandomRng Ω Key (Fin m → Fin c → ℝ) n} {keys : ℕ → Fin d → Key} {x₀ : Ω → Fin d → Batch Unit n (Fin m → Fin c → ℝ)} {s : State} {T : ℕ}
    (S : Run P (Measure.pi fun _ : Fin m => Measure.pi fun _ : Fin c => gaussianReal 0 1) 0 cfg g keys x₀ s T) (k : ℕ) (hk : k ≤ T) (a : Fin d) (i : Fin n) (ω : Ω)
    (hin : ∀ j, Geometry.Spec.InCell L (x₀ ω a () i j)) : walkers cfg g (pbcMoveAll L) ψ keys x₀ s ω k a () i = x₀ ω a () i := by
  have hu : ∀ k i ω, g.uniform k i ω ∈ Set.Ico (0 : ℝ) 1 := fun k i ω => (S.draws i).range k ω
  rw [walkers_chain cfg g hu _ ψ keys x₀ s T S.steady _ a i k hk, S.width]
  have hmove : ∀ z : Fin m → Fin c → ℝ, pbcMoveAll L 0 z (x₀ ω a () i) = x₀ ω a () i := by
    intro z
    funext j
    have hw := wrap_in_cell L hL (hin j)
    unfold pbcMoveAll pbcProposal
    simpa using hw
  generalize pairs g.split3 (fun t => keys t a) cfg.steps k = ks
  induction ks with
  | nil => rfl
  | cons q ks ih =>
    have : ∀ z u, wstep (fun y => ‖ψ y‖ ^ 2) (pbcMoveAll L 0) (x₀ ω a () i) z u = x₀ ω a () i := by
      intro z u
      unfold wstep
      rw [hmove]
      simp
    unfold chain at ih ⊢
    rw [List.foldl_cons, this]
    exact ih

/-- Two electrons in the unit cube, all walkers of two devices placed at one point, four hundred steps of ten updates with width 1/10 that is never adapted,
and a wavefunction that varies: after burn-in, the chance to find the first electron in the left half is what the wavefunction says, up to `ρ ^ 4000`. -/
example : ∃ (ρ : ℝ), 0 ≤ ρ ∧ ρ < 1 ∧ ∃ (Ω Key : Type) (_ : MeasurableSpace Ω) (P : Measure Ω) (_ : IsProbabilityMeasure P) (g : RandomRng Ω Key (Fin 2 → Fin 3 → ℝ) 5)
    (keys : ℕ → Fin 2 → Key), ∀ a i,
    |P.real {ω | walkers ⟨10, 1 / 10, 1000, 1 / 2, 55 / 100⟩ g (pbcMoveAll (1 : Matrix (Fin 3) (Fin 3) ℝ)) (fun x => 2 + Complex.ofReal (Real.cos (x 0 0 - x 1 0))) keys
        (fun _ _ _ _ _ _ => 0) (init ⟨10, 1 / 10, 1000, 1 / 2, 55 / 100⟩) ω 400 a () i 0 0 < 1 / 2} -
      (walkerLaw (cells 2 (1 : Matrix (Fin 3) (Fin 3) ℝ)) (fun x => 2 + Complex.ofReal (Real.cos (x 0 0 - x 1 0)))).real {x | x 0 0 < 1 / 2}| ≤ ρ ^ 4000 := by
  have hψ : Measurable fun x : Fin 2 → Fin 3 → ℝ => 2 + Complex.ofReal (Real.cos (x 0 0 - x 1 0)) := by fun_prop
  have hA : ∀ x : Fin 2 → Fin 3 → ℝ, ‖2 + Complex.ofReal (Real.cos (x 0 0 - x 1 0))‖ ≤ 3 := by
    intro x
    have e : (2 : ℂ) + Complex.ofReal (Real.cos (x 0 0 - x 1 0)) = ((2 + Real.cos (x 0 0 - x 1 0) : ℝ) : ℂ) := by push_cast; rfl
    rw [e, Complex.norm_real, Real.norm_eq_abs, abs_le]
    constructor <;> linarith [Real.neg_one_le_cos (x 0 0 - x 1 0), Real.cos_le_one (x 0 0 - x 1 0)]
  have hl : ∀ x : Fin 2 → Fin 3 → ℝ, 1 ≤ ‖2 + Complex.ofReal (Real.cos (x 0 0 - x 1 0))‖ ^ 2 := by
    intro x
    have e : (2 : ℂ) + Complex.ofReal (Real.cos (x 0 0 - x 1 0)) = ((2 + Real.cos (x 0 0 - x 1 0) : ℝ) : ℂ) := by push_cast; rfl
    rw [e, Complex.norm_real, Real.norm_eq_abs, sq_abs]
    nlinarith [Real.neg_one_le_cos (x 0 0 - x 1 0)]
  have hfin := cells_finite 2 (1 : Matrix (Fin 3) (Fin 3) ℝ)
  have hZ : 0 < ∫ y, ‖2 + Complex.ofReal (Real.cos (y 0 0 - y 1 0))‖ ^ 2 ∂cells 2 (1 : Matrix (Fin 3) (Fin 3) ℝ) := by
    have hi : Integrable (fun y : Fin 2 → Fin 3 → ℝ => ‖2 + Complex.ofReal (Real.cos (y 0 0 - y 1 0))‖ ^ 2) (cells 2 (1 : Matrix (Fin 3) (Fin 3) ℝ)) := by
      refine Integrable.of_bound (hψ.norm.pow_const 2).aestronglyMeasurable (3 ^ 2) (Filter.Eventually.of_forall fun x => ?_)
      rw [Real.norm_of_nonneg (by positivity)]
      exact pow_le_pow_left₀ (norm_nonneg _) (hA x) 2
    have h1 : ∫ _ : Fin 2 → Fin 3 → ℝ, (1 : ℝ) ∂cells 2 (1 : Matrix (Fin 3) (Fin 3) ℝ) ≤ ∫ y, ‖2 + Complex.ofReal (Real.cos (y 0 0 - y 1 0))‖ ^ 2 ∂cells 2 (1 : Matrix (Fin 3) (Fin 3) ℝ) :=
      integral_mono (integrable_const _) hi hl
    refine lt_of_lt_of_le ?_ h1
    have hcell : {p : Fin 3 → ℝ | Geometry.Spec.InCell (1 : Matrix (Fin 3) (Fin 3) ℝ) p} = Set.univ.pi fun _ => Set.Ico (0 : ℝ) 1 := by
      ext p
      simp only [Set.mem_ofPred_eq, Set.mem_univ_pi, Set.mem_Ico]
      constructor
      · rintro ⟨q, hq, hp⟩ k
        have : p k = q k := by rw [hp]; simp [Matrix.one_apply]
        rw [this]
        exact hq k
      · intro h
        exact ⟨p, h, fun k => by simp [Matrix.one_apply]⟩
    rw [integral_const, smul_eq_mul, mul_one]
    have : (cells 2 (1 : Matrix (Fin 3) (Fin 3) ℝ)) Set.univ = 1 := by
      unfold cells
      rw [hcell, Measure.pi_univ]
      simp only [Measure.restrict_apply_univ, volume_pi_pi, Real.volume_Ico]
      simp
    rw [Measure.real, this]
    norm_num
  obtain ⟨ρ, h0, h1, h⟩ := c137_cell (1 : Matrix (Fin 3) (Fin 3) ℝ) (by simp) hψ hA hZ (σ := 1 / 10) (by norm_num)
  obtain ⟨Ω, Key, i1, P, i2, g, keys, S⟩ := c137_exists (Measure.pi fun _ : Fin 2 => Measure.pi fun _ : Fin 3 => gaussianReal 0 1) ⟨10, 1 / 10, 1000, 1 / 2, 55 / 100⟩
    (init ⟨10, 1 / 10, 1000, 1 / 2, 55 / 100⟩) 2 5 400 (Or.inl fun k h1 h2 => by show (0 + k) % 1000 ≠ 0; omega) (fun _ _ => (0 : Fin 2 → Fin 3 → ℝ))
  refine ⟨ρ, h0, h1, Ω, Key, i1, P, i2, g, keys, fun a i => ?_⟩
  have hm : MeasurableSet {x : Fin 2 → Fin 3 → ℝ | x 0 0 < 1 / 2} := measurableSet_lt (by fun_prop) measurable_const
  have e : ρ ^ 4000 = ρ ^ (400 * 10) := by congr 1
  rw [e]
  exact (h Ω Key i1 P i2 5 2 _ g keys _ _ 400 S).1 400 le_rfl a i {x | x 0 0 < 1 / 2} hm

end Jaqmc.Average.Props
