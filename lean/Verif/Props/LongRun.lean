import Verif.Lemmas.Readings
import Verif.Props.Ergodic
/-!
C139: one long evaluation, from any start, reports what it should.  C135 to C138 are about averages over all the draws an evaluation could have made; this is about the draws it
makes: the chance that the one number it reports is off is small.
-/
namespace Jaqmc.Average.Props
open Jaqmc.Sampler Jaqmc.Sampler.Props Jaqmc.Average Jaqmc.Average.Spec Jaqmc.Average.Ergodic Jaqmc.LossGrad.Spec Jaqmc.Geometry Jaqmc.Geometry.Props.Sphere
open MeasureTheory ProbabilityTheory Filter Topology
open scoped ENNReal Classical

variable {V N Ω Key : Type} {n d : ℕ} [MeasurableSpace V] [MeasurableSpace N] [MeasurableSpace Ω]

/-! ### Specification -/

/-- For a quantity with an average in the distribution of the wavefunction (bounded or not): whatever the starting places, tolerance and chance of failure, in every
evaluation that is long enough the reported average over steps, devices and walkers is within the tolerance of that average, but for the given chance. -/
def ReportsAverage (μ : Measure V) (ν : Measure N) (ψ : V → ℂ) (move : ℝ → N → V → V) (σ : ℝ) : Prop :=
  ∀ e : V → ℂ, Measurable e → Integrable e (walkerLaw μ ψ) → ∀ n d : ℕ, 0 < n → 0 < d → ∀ (y : Fin d → Fin n → V) (δ ε : ℝ), 0 < δ → 0 < ε →
    ∃ M : ℕ, ∀ (Ω Key : Type) (_ : MeasurableSpace Ω) (P : Measure Ω) (_ : IsProbabilityMeasure P) (cfg : Cfg) (g : RandomRng Ω Key N n)
      (keys : ℕ → Fin d → Key) (x₀ : Ω → Fin d → Batch Unit n V) (s : State) (T : ℕ), Run P ν σ cfg g keys x₀ s T → 0 < cfg.steps → M ≤ T →
      (∀ a i, ∀ᵐ ω ∂P, x₀ ω a () i = y a i) →
      ∃ r : Ω → ℂ, (∀ ω, reported cfg g move ψ e keys x₀ s T ω = some (r ω)) ∧ Measurable r ∧ P.real {ω | δ ≤ ‖r ω - ∫ x, e x ∂walkerLaw μ ψ‖} ≤ ε

/-- The same for the energy: the local energy need not be bounded, and its average is the variational energy. -/
def ReportsTheEnergy (μ : Measure V) (ν : Measure N) (ψ : V → ℂ) (move : ℝ → N → V → V) (σ : ℝ) : Prop :=
  ∀ (H : L2C μ →ₗ.[ℂ] L2C μ), Symmetric H → ∀ φ : H.domain, (φ : L2C μ) ≠ 0 → (φ : L2C μ) =ᵐ[μ] ψ → ∀ e : V → ℂ, IsLocalEnergy H φ e → Measurable e →
    ∀ n d : ℕ, 0 < n → 0 < d → ∀ (y : Fin d → Fin n → V) (δ ε : ℝ), 0 < δ → 0 < ε →
    ∃ M : ℕ, ∀ (Ω Key : Type) (_ : MeasurableSpace Ω) (P : Measure Ω) (_ : IsProbabilityMeasure P) (cfg : Cfg) (g : RandomRng Ω Key N n)
      (keys : ℕ → Fin d → Key) (x₀ : Ω → Fin d → Batch Unit n V) (s : State) (T : ℕ), Run P ν σ cfg g keys x₀ s T → 0 < cfg.steps → M ≤ T →
      (∀ a i, ∀ᵐ ω ∂P, x₀ ω a () i = y a i) →
      ∃ r : Ω → ℂ, (∀ ω, reported cfg g move ψ e keys x₀ s T ω = some (r ω)) ∧ Measurable r ∧ P.real {ω | δ ≤ ‖r ω - (energy H φ : ℂ)‖} ≤ ε

/-! ### Proofs -/

/-- One walker: the sum of its readings is rarely off. -/
theorem walker_long_run {μ : Measure V} {ν : Measure N} [IsProbabilityMeasure ν] {ψ : V → ℂ} (hψ : Measurable ψ) (hZ : 0 < ∫ y, ‖ψ y‖ ^ 2 ∂μ)
    [IsProbabilityMeasure (walkerLaw μ ψ)] {move : ℝ → N → V → V} {σ : ℝ} (E : Explores μ ν ψ (move σ)) {h : V → ℝ} (hh : Measurable h) (hi : Integrable h (walkerLaw μ ψ))
    (hz : ∫ y, h y ∂walkerLaw μ ψ = 0) (x : V) {δ ε : ℝ} (hδ : 0 < δ) (hε : 0 < ε) :
    ∃ M : ℕ, ∀ (Ω Key : Type) (_ : MeasurableSpace Ω) (P : Measure Ω) (_ : IsProbabilityMeasure P) (n d : ℕ) (cfg : Cfg) (g : RandomRng Ω Key N n)
      (keys : ℕ → Fin d → Key) (x₀ : Ω → Fin d → Batch Unit n V) (s : State) (T : ℕ), Run P ν σ cfg g keys x₀ s T → 0 < cfg.steps → M ≤ T →
      ∀ a i, (∀ᵐ ω ∂P, x₀ ω a () i = x) →
      ∫ ω, far (fun ω => ∑ t ∈ Finset.range T, h (walkers cfg g move ψ keys x₀ s ω (t + 1) a () i)) (δ * T) ω ∂P ≤ ε := by
  have hmv := E.measurable
  have hr := E.reversible
  obtain ⟨k, hk, hc, -, h2⟩ := E.covers
  obtain ⟨M, hM⟩ := long_run hψ hmv hr (metro_reach hψ hZ hmv hk hc h2) (fun ε hε => update_point hψ hZ E x hε) hh hi hz hδ hε
  refine ⟨M, fun Ω Key _ P _ n d cfg g keys x₀ s T S hq hT a i hx => ?_⟩
  have hu : ∀ k i ω, g.uniform k i ω ∈ Set.Ico (0 : ℝ) 1 := fun k i ω => (S.draws i).range k ω
  have hup : ∀ t, upto (fun t => (List.range cfg.steps).map (drawKeys g.split3 (keys t a))) t = pairs g.split3 (fun t => keys t a) cfg.steps t := fun t => rfl
  have h1 := hM Ω Key _ P inferInstance (fun k => g.noise k i) (fun k => g.uniform k i) (S.draws i) cfg.steps hq
    (fun t => (List.range cfg.steps).map (drawKeys g.split3 (keys t a))) T hT (fun t _ => by simp) (by rw [hup, allKeys_pairs]; exact S.fresh a)
  refine le_trans (le_of_eq (integral_congr_ae ?_)) h1
  filter_upwards [hx] with ω hω
  have : ∑ t ∈ Finset.range T, h (walkers cfg g move ψ keys x₀ s ω (t + 1) a () i) = total h (fun y => ‖ψ y‖ ^ 2) (move σ)
      (fun t => (List.range cfg.steps).map (drawKeys g.split3 (keys t a))) T x (fun k => (g.noise k i ω, g.uniform k i ω)) := by
    unfold total
    refine Finset.sum_congr rfl fun t ht => ?_
    rw [walkers_chain cfg g hu move ψ keys x₀ s T S.steady ω a i (t + 1) (Finset.mem_range.mp ht), S.width, hω, hup]
  simp only [far, Set.indicator_apply, Set.mem_ofPred_eq, this]

/-- If every walker's sum is near, so is the average over all. -/
theorem average_near (hn : 0 < n) (hd : 0 < d) {T : ℕ} (hT : 0 < T) (z : ℕ → Fin d → Fin n → ℂ) (c : ℂ) {δ : ℝ}
    (h : ∀ a i, |∑ t ∈ Finset.range T, (z t a i - c).re| < δ / 2 * T ∧ |∑ t ∈ Finset.range T, (z t a i - c).im| < δ / 2 * T) :
    ‖(∑ t ∈ Finset.range T, (∑ a, (∑ i, z t a i) / (n : ℂ)) / (d : ℂ)) / (T : ℂ) - c‖ < δ := by
  have hd' : (d : ℂ) ≠ 0 := by exact_mod_cast hd.ne'
  have hn' : (n : ℂ) ≠ 0 := by exact_mod_cast hn.ne'
  have hT' : (T : ℂ) ≠ 0 := by exact_mod_cast hT.ne'
  have hTr : (0 : ℝ) < T := by exact_mod_cast hT
  have hdr : (0 : ℝ) < d := by exact_mod_cast hd
  have hnr : (0 : ℝ) < n := by exact_mod_cast hn
  have e : (∑ t ∈ Finset.range T, (∑ a, (∑ i, z t a i) / (n : ℂ)) / (d : ℂ)) / (T : ℂ) - c = (∑ a, ∑ i, ∑ t ∈ Finset.range T, (z t a i - c)) / (n * d * T) := by
    have e1 : ∑ a, ∑ i, ∑ t ∈ Finset.range T, (z t a i - c) = (∑ t ∈ Finset.range T, ∑ a, ∑ i, z t a i) - d * (n * (T * c)) := by
      simp_rw [Finset.sum_sub_distrib, Finset.sum_const, Finset.card_range, Finset.card_univ, Fintype.card_fin, nsmul_eq_mul]
      congr 1
      exact Eq.symm (Finset.sum_comm.trans (Finset.sum_congr rfl fun a _ => Finset.sum_comm))
    rw [e1]
    simp_rw [← Finset.sum_div]
    field_simp
  have hw : ∀ a i, ‖∑ t ∈ Finset.range T, (z t a i - c)‖ < δ * T := fun a i => by
    refine (Complex.norm_le_abs_re_add_abs_im _).trans_lt ?_
    rw [Complex.re_sum, Complex.im_sum]
    linarith [(h a i).1, (h a i).2]
  rw [e, norm_div, norm_mul, norm_mul, Complex.norm_natCast, Complex.norm_natCast, Complex.norm_natCast, div_lt_iff₀ (by positivity)]
  have ne1 : (Finset.univ : Finset (Fin n)).Nonempty := ⟨⟨0, hn⟩, Finset.mem_univ _⟩
  have ne2 : (Finset.univ : Finset (Fin d)).Nonempty := ⟨⟨0, hd⟩, Finset.mem_univ _⟩
  refine (norm_sum_le _ _).trans_lt ?_
  have h1 : ∀ a ∈ (Finset.univ : Finset (Fin d)), ‖∑ i, ∑ t ∈ Finset.range T, (z t a i - c)‖ < n * (δ * T) := fun a _ => by
    refine (norm_sum_le _ _).trans_lt ((Finset.sum_lt_sum_of_nonempty ne1 fun i _ => hw a i).trans_eq ?_)
    simp
  refine (Finset.sum_lt_sum_of_nonempty ne2 h1).trans_eq ?_
  simp
  ring

/-- **C139.** In any geometry the proposal of which can reach everywhere. -/
theorem c139_average {μ : Measure V} {ν : Measure N} [IsProbabilityMeasure ν] {ψ : V → ℂ} (hψ : Measurable ψ) (hZ : 0 < ∫ y, ‖ψ y‖ ^ 2 ∂μ)
    [IsProbabilityMeasure (walkerLaw μ ψ)] {move : ℝ → N → V → V} {σ : ℝ} (E : Explores μ ν ψ (move σ)) : ReportsAverage μ ν ψ move σ := by
  intro e hem hie n d hn hd y δ ε hδ hε
  set c := ∫ x, e x ∂walkerLaw μ ψ with hc
  have hic : Integrable (fun x => e x - c) (walkerLaw μ ψ) := hie.sub (integrable_const _)
  have hz : ∫ x, (e x - c) ∂walkerLaw μ ψ = 0 := by
    rw [integral_sub hie (integrable_const _), ← hc]
    simp
  have m1 : Measurable fun x => (e x - c).re := Complex.measurable_re.comp (hem.sub measurable_const)
  have m2 : Measurable fun x => (e x - c).im := Complex.measurable_im.comp (hem.sub measurable_const)
  have i1 : Integrable (fun x => (e x - c).re) (walkerLaw μ ψ) := hic.re
  have i2 : Integrable (fun x => (e x - c).im) (walkerLaw μ ψ) := hic.im
  have z1 : ∫ x, (e x - c).re ∂walkerLaw μ ψ = 0 := by
    have := integral_re (𝕜 := ℂ) hic
    simp only [RCLike.re_eq_complex_re] at this
    rw [this, hz, Complex.zero_re]
  have z2 : ∫ x, (e x - c).im ∂walkerLaw μ ψ = 0 := by
    have := integral_im (𝕜 := ℂ) hic
    simp only [RCLike.im_eq_complex_im] at this
    rw [this, hz, Complex.zero_im]
  have hnr : (0 : ℝ) < n := by exact_mod_cast hn
  have hdr : (0 : ℝ) < d := by exact_mod_cast hd
  choose M₁ hM₁ using fun (a : Fin d) (i : Fin n) => walker_long_run hψ hZ E m1 i1 z1 (y a i) (δ := δ / 2) (ε := ε / 2 / (d * n)) (by positivity) (by positivity)
  choose M₂ hM₂ using fun (a : Fin d) (i : Fin n) => walker_long_run hψ hZ E m2 i2 z2 (y a i) (δ := δ / 2) (ε := ε / 2 / (d * n)) (by positivity) (by positivity)
  set M := ∑ a, ∑ i, (M₁ a i + M₂ a i) with hM
  have hle : ∀ a i, M₁ a i + M₂ a i ≤ M := fun a i =>
    (Finset.single_le_sum (f := fun i => M₁ a i + M₂ a i) (fun _ _ => Nat.zero_le _) (Finset.mem_univ i)).trans
      (Finset.single_le_sum (f := fun a => ∑ i, (M₁ a i + M₂ a i)) (fun _ _ => Nat.zero_le _) (Finset.mem_univ a))
  refine ⟨M + 1, fun Ω Key _ P _ cfg g keys x₀ s T S hq hT hx => ?_⟩
  have hT0 : 0 < T := by omega
  have hwm : ∀ t ∈ Finset.range T, ∀ a i, Measurable fun ω => walkers cfg g move ψ keys x₀ s ω (t + 1) a () i := fun t ht a i =>
    run_walker_measurable hψ E.measurable S (t + 1) (Finset.mem_range.mp ht) a i
  have mr : Measurable fun ω => (∑ t ∈ Finset.range T, (∑ a, (∑ i, e (walkers cfg g move ψ keys x₀ s ω (t + 1) a () i)) / (n : ℂ)) / (d : ℂ)) / (T : ℂ) := by
    refine Measurable.div_const (Finset.measurable_sum _ fun t ht => Measurable.div_const (Finset.measurable_sum _ fun a _ =>
      Measurable.div_const (Finset.measurable_sum _ fun i _ => ?_) _) _) _
    exact hem.comp (hwm t ht a i)
  refine ⟨_, fun ω => reported_eq hd hn T hT0 cfg g move ψ e keys x₀ s ω, mr, ?_⟩
  set r := fun ω => (∑ t ∈ Finset.range T, (∑ a, (∑ i, e (walkers cfg g move ψ keys x₀ s ω (t + 1) a () i)) / (n : ℂ)) / (d : ℂ)) / (T : ℂ) with hrd
  set A₁ := fun (a : Fin d) (i : Fin n) (ω : Ω) => ∑ t ∈ Finset.range T, (e (walkers cfg g move ψ keys x₀ s ω (t + 1) a () i) - c).re with hA₁
  set A₂ := fun (a : Fin d) (i : Fin n) (ω : Ω) => ∑ t ∈ Finset.range T, (e (walkers cfg g move ψ keys x₀ s ω (t + 1) a () i) - c).im with hA₂
  have mA₁ : ∀ a i, Measurable (A₁ a i) := fun a i => Finset.measurable_sum _ fun t ht => m1.comp (hwm t ht a i)
  have mA₂ : ∀ a i, Measurable (A₂ a i) := fun a i => Finset.measurable_sum _ fun t ht => m2.comp (hwm t ht a i)
  have b₁ : ∀ a i, ∫ ω, far (A₁ a i) (δ / 2 * T) ω ∂P ≤ ε / 2 / (d * n) := fun a i =>
    hM₁ a i Ω Key _ P inferInstance n d cfg g keys x₀ s T S hq (by have := hle a i; omega) a i (hx a i)
  have b₂ : ∀ a i, ∫ ω, far (A₂ a i) (δ / 2 * T) ω ∂P ≤ ε / 2 / (d * n) := fun a i =>
    hM₂ a i Ω Key _ P inferInstance n d cfg g keys x₀ s T S hq (by have := hle a i; omega) a i (hx a i)
  have ms : MeasurableSet {ω | δ ≤ ‖r ω - c‖} := measurableSet_le measurable_const (mr.sub measurable_const).norm
  have hn0 : ∀ (f : Ω → ℝ) q ω, 0 ≤ far f q ω := fun f q ω => Set.indicator_nonneg (fun _ _ => zero_le_one) ω
  have hpt : ∀ ω, ({ω | δ ≤ ‖r ω - c‖} : Set Ω).indicator (fun _ => (1 : ℝ)) ω ≤ ∑ a, ∑ i, (far (A₁ a i) (δ / 2 * T) ω + far (A₂ a i) (δ / 2 * T) ω) := by
    intro ω
    have hs0 : ∀ a i, 0 ≤ far (A₁ a i) (δ / 2 * T) ω + far (A₂ a i) (δ / 2 * T) ω := fun a i => add_nonneg (hn0 _ _ _) (hn0 _ _ _)
    by_cases hω : δ ≤ ‖r ω - c‖
    · rw [Set.indicator_of_mem (by exact hω)]
      by_contra hcon
      refine absurd (average_near hn hd hT0 (fun t a i => e (walkers cfg g move ψ keys x₀ s ω (t + 1) a () i)) c (δ := δ) fun a i => ?_) (not_lt.mpr hω)
      have h1 : far (A₁ a i) (δ / 2 * T) ω + far (A₂ a i) (δ / 2 * T) ω < 1 := by
        refine lt_of_le_of_lt ?_ (not_le.mp hcon)
        exact (Finset.single_le_sum (f := fun i => far (A₁ a i) (δ / 2 * T) ω + far (A₂ a i) (δ / 2 * T) ω) (fun i _ => hs0 a i) (Finset.mem_univ i)).trans
          (Finset.single_le_sum (f := fun a => ∑ i, (far (A₁ a i) (δ / 2 * T) ω + far (A₂ a i) (δ / 2 * T) ω)) (fun a _ => Finset.sum_nonneg fun i _ => hs0 a i) (Finset.mem_univ a))
      constructor
      · by_contra hh
        have : far (A₁ a i) (δ / 2 * T) ω = 1 := by
          unfold far
          exact Set.indicator_of_mem (by exact not_lt.mp hh) _
        linarith [hn0 (A₂ a i) (δ / 2 * T) ω]
      · by_contra hh
        have : far (A₂ a i) (δ / 2 * T) ω = 1 := by
          unfold far
          exact Set.indicator_of_mem (by exact not_lt.mp hh) _
        linarith [hn0 (A₁ a i) (δ / 2 * T) ω]
    · rw [Set.indicator_of_notMem (by exact hω)]
      exact Finset.sum_nonneg fun a _ => Finset.sum_nonneg fun i _ => hs0 a i
  have j₁ : ∀ a i, Integrable (fun ω => far (A₁ a i) (δ / 2 * T) ω) P := fun a i => (far_bdd (mA₁ a i) _).int P
  have j₂ : ∀ a i, Integrable (fun ω => far (A₂ a i) (δ / 2 * T) ω) P := fun a i => (far_bdd (mA₂ a i) _).int P
  have j : ∀ a i, Integrable (fun ω => far (A₁ a i) (δ / 2 * T) ω + far (A₂ a i) (δ / 2 * T) ω) P := fun a i => (j₁ a i).add (j₂ a i)
  have h1 := integral_mono ((integrable_const (1 : ℝ)).indicator ms) (integrable_finsetSum _ fun a _ => integrable_finsetSum _ fun i _ => j a i) hpt
  rw [integral_indicator_const _ ms, smul_eq_mul, mul_one] at h1
  refine h1.trans ?_
  rw [integral_finsetSum _ fun a _ => integrable_finsetSum _ fun i _ => j a i]
  have h2 : ∀ a ∈ (Finset.univ : Finset (Fin d)), ∫ ω, ∑ i, (far (A₁ a i) (δ / 2 * T) ω + far (A₂ a i) (δ / 2 * T) ω) ∂P ≤ n * (ε / (d * n)) := by
    intro a _
    rw [integral_finsetSum _ fun i _ => j a i]
    have h3 : ∀ i ∈ (Finset.univ : Finset (Fin n)), ∫ ω, (far (A₁ a i) (δ / 2 * T) ω + far (A₂ a i) (δ / 2 * T) ω) ∂P ≤ ε / (d * n) := by
      intro i _
      rw [integral_add (j₁ a i) (j₂ a i)]
      have : ε / (d * n) = ε / 2 / (d * n) + ε / 2 / (d * n) := by ring
      rw [this]
      exact add_le_add (b₁ a i) (b₂ a i)
    refine (Finset.sum_le_sum h3).trans (le_of_eq ?_)
    simp
  refine (Finset.sum_le_sum h2).trans (le_of_eq ?_)
  simp
  field_simp

/-- **C139.** The energy, whether or not the local energy is bounded. -/
theorem c139_energy {μ : Measure V} {ν : Measure N} [IsProbabilityMeasure ν] {ψ : V → ℂ} (hψ : Measurable ψ) (hZ : 0 < ∫ y, ‖ψ y‖ ^ 2 ∂μ)
    [IsProbabilityMeasure (walkerLaw μ ψ)] {move : ℝ → N → V → V} {σ : ℝ} (E : Explores μ ν ψ (move σ)) : ReportsTheEnergy μ ν ψ move σ := by
  intro H hs φ hφ0 hφ e he hem n d hn hd y δ ε hδ hε
  obtain ⟨hi, hm⟩ := local_mean hs φ hφ0 he
  rw [law_congr hφ] at hi hm
  rw [← hm]
  exact c139_average hψ hZ E e hem hi n d hn hd y δ ε hδ hε

/-- **C139.** Molecules. -/
theorem c139_molecule {m : ℕ} {ψ : (Fin m → ℝ) → ℂ} (hψ : Measurable ψ) (hi : Integrable fun x => ‖ψ x‖ ^ 2) (hZ : 0 < ∫ y, ‖ψ y‖ ^ 2) {σ : ℝ} (hσ : σ ≠ 0) :
    ReportsAverage volume (Measure.pi fun _ : Fin m => gaussianReal 0 1) ψ gaussianMove σ ∧
    ReportsTheEnergy volume (Measure.pi fun _ : Fin m => gaussianReal 0 1) ψ gaussianMove σ := by
  have := walkerLaw_probability hi hZ
  have E := explores_molecule ψ hσ
  exact ⟨c139_average hψ hZ E, c139_energy hψ hZ E⟩

/-- **C139.** Solids. -/
theorem c139_solid {m c : ℕ} (L : Matrix (Fin c) (Fin c) ℝ) (hL : IsUnit L.det) {ψ : (Fin m → Fin c → ℝ) → ℂ} (hψ : Measurable ψ)
    (hi : Integrable (fun x => ‖ψ x‖ ^ 2) (cells m L)) (hZ : 0 < ∫ y, ‖ψ y‖ ^ 2 ∂cells m L) {σ : ℝ} (hσ : σ ≠ 0) :
    ReportsAverage (cells m L) (Measure.pi fun _ : Fin m => Measure.pi fun _ : Fin c => gaussianReal 0 1) ψ (pbcMoveAll L) σ ∧
    ReportsTheEnergy (cells m L) (Measure.pi fun _ : Fin m => Measure.pi fun _ : Fin c => gaussianReal 0 1) ψ (pbcMoveAll L) σ := by
  have := walkerLaw_probability hi hZ
  have E := explores_solid L hL ψ hσ
  exact ⟨c139_average hψ hZ E, c139_energy hψ hZ E⟩

open Jaqmc.Geometry.Area in
/-- **C139.** Electrons on a sphere, for wavefunctions that are zero only on a set without area. -/
theorem c139_sphere {m : ℕ} {ψ : (Fin m → ℝ × ℝ) → ℂ} (hψ : Measurable ψ) (hi : Integrable (fun x => ‖ψ x‖ ^ 2) (Measure.pi fun _ : Fin m => area))
    (hZ : 0 < ∫ y, ‖ψ y‖ ^ 2 ∂(Measure.pi fun _ : Fin m => area)) (h0 : ∀ᵐ x ∂(Measure.pi fun _ : Fin m => area), ψ x ≠ 0) {σ : ℝ} (hσ : σ ≠ 0) :
    ReportsAverage (Measure.pi fun _ : Fin m => area) (Measure.pi fun _ : Fin m => drawLaw) ψ sphereMoveAll σ ∧
    ReportsTheEnergy (Measure.pi fun _ : Fin m => area) (Measure.pi fun _ : Fin m => drawLaw) ψ sphereMoveAll σ := by
  have := walkerLaw_probability hi hZ
  have E := explores_sphere hψ hZ h0 hσ
  exact ⟨c139_average hψ hZ E, c139_energy hψ hZ E⟩

/-! ### How long is long enough depends on the start -/

/-- Far away, any fixed number of updates rarely leads back. -/
theorem far_start {m : ℕ} {ψ : (Fin m → ℝ) → ℂ} (hψ : Measurable ψ) (hi : Integrable fun x => ‖ψ x‖ ^ 2) (hZ : 0 < ∫ y, ‖ψ y‖ ^ 2) (σ : ℝ) (r : ℝ) (k : ℕ) {ε : ℝ} (hε : 0 < ε) :
    ∃ R : ℝ, ∀ x : Fin m → ℝ, R ≤ ‖x‖ →
      (U ((Measure.pi fun _ : Fin m => gaussianReal 0 1).prod unif) (metro ψ (gaussianMove σ)))^[k] ((Metric.closedBall 0 r).indicator fun _ => 1) x ≤ ε := by
  have := walkerLaw_probability hi hZ
  have hmv : Measurable fun p : (Fin m → ℝ) × (Fin m → ℝ) => gaussianMove σ p.2 p.1 := by unfold gaussianMove; fun_prop
  have hR := metro_rev hψ hmv (c135_gaussian (m := m) σ)
  have hB : Bdd ((Metric.closedBall (0 : Fin m → ℝ) r).indicator fun _ => (1 : ℝ)) 1 :=
    ⟨measurable_const.indicator Metric.isClosed_closedBall.measurableSet, fun x => by by_cases hx : x ∈ Metric.closedBall (0 : Fin m → ℝ) r <;> simp [Set.indicator_apply, hx]⟩
  induction k generalizing ε with
  | zero =>
    refine ⟨r + 1, fun x hx => ?_⟩
    have : x ∉ Metric.closedBall (0 : Fin m → ℝ) r := by
      rw [mem_closedBall_zero_iff]
      linarith
    rw [Function.iterate_zero_apply, Set.indicator_of_notMem this]
    exact hε.le
  | succ k ih =>
    obtain ⟨R, hRk⟩ := ih (half_pos hε)
    set ν := Measure.pi fun _ : Fin m => gaussianReal 0 1 with hν
    -- the step is rarely long
    have ms : Measurable fun q : (Fin m → ℝ) × ℝ => |σ| * ‖q.1‖ := measurable_const.mul measurable_fst.norm
    have hlim : Tendsto (fun j : ℕ => ∫ q, far (fun q : (Fin m → ℝ) × ℝ => |σ| * ‖q.1‖) j q ∂(ν.prod unif)) atTop (𝓝 0) := by
      have := tendsto_integral_of_dominated_convergence (μ := ν.prod unif) (F := fun (j : ℕ) q => far (fun q : (Fin m → ℝ) × ℝ => |σ| * ‖q.1‖) j q) (f := fun _ => 0) (fun _ => 1)
        (fun j => (far_bdd ms j).meas.aestronglyMeasurable) (integrable_const _) (fun j => Filter.Eventually.of_forall fun q => (far_bdd ms j).le q)
        (Filter.Eventually.of_forall fun q => far_to_zero _ q)
      simpa using this
    obtain ⟨j, hj⟩ := (hlim.eventually (gt_mem_nhds (half_pos hε))).exists
    refine ⟨R + j, fun x hx => ?_⟩
    rw [Function.iterate_succ_apply']
    have hb := (hB.iter hR k).step hR x
    have h1 : ∀ q, (U (ν.prod unif) (metro ψ (gaussianMove σ)))^[k] ((Metric.closedBall 0 r).indicator fun _ => 1) (metro ψ (gaussianMove σ) x q) ≤
        ε / 2 + far (fun q : (Fin m → ℝ) × ℝ => |σ| * ‖q.1‖) j q := by
      intro q
      by_cases hq : (j : ℝ) ≤ |(|σ| * ‖q.1‖)|
      · have e1 : far (fun q : (Fin m → ℝ) × ℝ => |σ| * ‖q.1‖) j q = 1 := by
          unfold far
          exact Set.indicator_of_mem (by exact hq) _
        rw [e1]
        linarith [(abs_le.mp (hb.le q)).2]
      · have h0 : 0 ≤ far (fun q : (Fin m → ℝ) × ℝ => |σ| * ‖q.1‖) j q := Set.indicator_nonneg (fun _ _ => zero_le_one) q
        have hlt : |σ| * ‖q.1‖ < j := by
          rw [abs_of_nonneg (by positivity)] at hq
          exact not_le.mp hq
        have hfar : R ≤ ‖metro ψ (gaussianMove σ) x q‖ := by
          unfold metro wstep
          split_ifs
          · have hmove : gaussianMove σ q.1 x = x + σ • q.1 := by
              funext l
              simp [gaussianMove, mul_comm]
            rw [hmove]
            have h2 := norm_sub_le (x + σ • q.1) (σ • q.1)
            rw [add_sub_cancel_right, norm_smul, Real.norm_eq_abs] at h2
            linarith
          · have : (0 : ℝ) ≤ j := Nat.cast_nonneg _
            linarith
        have := hRk _ hfar
        linarith
    have h2 := integral_mono (hb.int _) ((integrable_const (ε / 2)).add ((far_bdd ms j).int (ν.prod unif))) h1
    refine h2.trans ?_
    rw [integral_add' (integrable_const _) ((far_bdd ms j).int (ν.prod unif))]
    simp only [integral_const, probReal_univ, one_smul]
    linarith

/-- **C139.** In a molecule no burn-in length works for all starts (in a solid one does, C137): however many updates are made, from some starts the walkers are, but for any
chance, still where the wavefunction says they almost never are. -/
theorem c139_not_uniform {m : ℕ} (hm : 0 < m) {ψ : (Fin m → ℝ) → ℂ} (hψ : Measurable ψ) (hi : Integrable fun x => ‖ψ x‖ ^ 2) (hZ : 0 < ∫ y, ‖ψ y‖ ^ 2) (σ : ℝ) (M : ℕ) {ε : ℝ} (hε : 0 < ε) :
    ∃ (R : Set (Fin m → ℝ)) (x : Fin m → ℝ), MeasurableSet R ∧ (walkerLaw volume ψ).real R ≤ ε ∧
      ∀ (Ω Key : Type) (_ : MeasurableSpace Ω) (P : Measure Ω) (_ : IsProbabilityMeasure P) (n d : ℕ) (cfg : Cfg) (g : RandomRng Ω Key (Fin m → ℝ) n)
        (keys : ℕ → Fin d → Key) (x₀ : Ω → Fin d → Batch Unit n (Fin m → ℝ)) (s : State) (T : ℕ),
        Run P (Measure.pi fun _ : Fin m => gaussianReal 0 1) σ cfg g keys x₀ s T → ∀ t ≤ T, t * cfg.steps ≤ M → ∀ a i, (∀ᵐ ω ∂P, x₀ ω a () i = x) →
        1 - ε ≤ P.real {ω | walkers cfg g gaussianMove ψ keys x₀ s ω t a () i ∈ R} := by
  have := walkerLaw_probability hi hZ
  have hmv : Measurable fun p : (Fin m → ℝ) × (Fin m → ℝ) => gaussianMove σ p.2 p.1 := by unfold gaussianMove; fun_prop
  have hR := metro_rev hψ hmv (c135_gaussian (m := m) σ)
  -- a ball that holds almost all of the squared wavefunction
  have hlim : Tendsto (fun j : ℕ => ∫ x, far (fun x : Fin m → ℝ => ‖x‖) j x ∂walkerLaw volume ψ) atTop (𝓝 0) := by
    have := tendsto_integral_of_dominated_convergence (μ := walkerLaw volume ψ) (F := fun (j : ℕ) q => far (fun x : Fin m → ℝ => ‖x‖) j q) (f := fun _ => 0) (fun _ => 1)
      (fun j => (far_bdd measurable_norm j).meas.aestronglyMeasurable) (integrable_const _) (fun j => Filter.Eventually.of_forall fun q => (far_bdd measurable_norm j).le q)
      (Filter.Eventually.of_forall fun q => far_to_zero _ q)
    simpa using this
  obtain ⟨j, hj⟩ := (hlim.eventually (gt_mem_nhds hε)).exists
  choose R hRk using fun k => far_start hψ hi hZ σ j k hε
  set R' := ∑ k ∈ Finset.range (M + 1), |R k| with hR'
  have hmB : MeasurableSet (Metric.closedBall (0 : Fin m → ℝ) j) := Metric.isClosed_closedBall.measurableSet
  have hB : Bdd ((Metric.closedBall (0 : Fin m → ℝ) j).indicator fun _ => (1 : ℝ)) 1 :=
    ⟨measurable_const.indicator hmB, fun x => by by_cases hx : x ∈ Metric.closedBall (0 : Fin m → ℝ) j <;> simp [Set.indicator_apply, hx]⟩
  refine ⟨(Metric.closedBall 0 j)ᶜ, fun _ => R', hmB.compl, ?_, fun Ω Key _ P _ n d cfg g keys x₀ s T S t ht hM a i hx => ?_⟩
  · rw [← mul_one ((walkerLaw volume ψ).real _), ← smul_eq_mul, ← integral_indicator_const _ hmB.compl]
    refine le_trans (integral_mono ((integrable_const _).indicator hmB.compl) ((far_bdd measurable_norm j).int _) fun x => ?_) hj.le
    unfold far
    refine Set.indicator_le_indicator_of_subset (fun y hy => ?_) (fun _ => zero_le_one) x
    rw [Set.mem_compl_iff, mem_closedBall_zero_iff, not_le] at hy
    show (j : ℝ) ≤ |‖y‖|
    rw [abs_norm]
    exact hy.le
  · have h1 : ∫ ω, (Metric.closedBall (0 : Fin m → ℝ) j).indicator (fun _ => (1 : ℝ)) (walkers cfg g gaussianMove ψ keys x₀ s ω t a () i) ∂P =
        (U ((Measure.pi fun _ : Fin m => gaussianReal 0 1).prod unif) (metro ψ (gaussianMove σ)))^[t * cfg.steps] ((Metric.closedBall 0 j).indicator fun _ => 1) fun _ => R' := by
      rw [run_average hψ hmv S t ht a i hB, integral_map (S.measurable a i).aemeasurable (hB.iter hR _).meas.aestronglyMeasurable,
      integral_congr_ae (g := fun _ => (U ((Measure.pi fun _ : Fin m => gaussianReal 0 1).prod unif) (metro ψ (gaussianMove σ)))^[t * cfg.steps]
        ((Metric.closedBall 0 j).indicator fun _ => 1) fun _ => R') (by filter_upwards [hx] with ω e; rw [e])]
      simp only [integral_const, probReal_univ, one_smul]
    have h2 := hRk (t * cfg.steps) (fun _ => R') (by
      have hnn : 0 ≤ R' := Finset.sum_nonneg fun k _ => abs_nonneg _
      have hne : Nonempty (Fin m) := ⟨⟨0, hm⟩⟩
      rw [pi_norm_const, Real.norm_eq_abs, abs_of_nonneg hnn]
      exact (le_abs_self _).trans (Finset.single_le_sum (f := fun k => |R k|) (fun k _ => abs_nonneg _) (Finset.mem_range.mpr (by omega))))
    have hw := run_walker_measurable hψ hmv S t ht a i
    have e1 : ∫ ω, (Metric.closedBall (0 : Fin m → ℝ) j).indicator (fun _ => (1 : ℝ)) (walkers cfg g gaussianMove ψ keys x₀ s ω t a () i) ∂P =
        P.real {ω | walkers cfg g gaussianMove ψ keys x₀ s ω t a () i ∈ Metric.closedBall (0 : Fin m → ℝ) j} := by
      have hwR : MeasurableSet {ω | walkers cfg g gaussianMove ψ keys x₀ s ω t a () i ∈ Metric.closedBall (0 : Fin m → ℝ) j} := hw hmB
      have e : (fun ω => (Metric.closedBall (0 : Fin m → ℝ) j).indicator (fun _ => (1 : ℝ)) (walkers cfg g gaussianMove ψ keys x₀ s ω t a () i)) =
          ({ω | walkers cfg g gaussianMove ψ keys x₀ s ω t a () i ∈ Metric.closedBall (0 : Fin m → ℝ) j}).indicator fun _ => 1 := by
        funext ω
        rfl
      rw [e, integral_indicator_const _ hwR, smul_eq_mul, mul_one]
    have hwR : MeasurableSet {ω | walkers cfg g gaussianMove ψ keys x₀ s ω t a () i ∈ Metric.closedBall (0 : Fin m → ℝ) j} := hw hmB
    have h3 : P.real {ω | walkers cfg g gaussianMove ψ keys x₀ s ω t a () i ∈ (Metric.closedBall (0 : Fin m → ℝ) j)ᶜ} =
        1 - P.real {ω | walkers cfg g gaussianMove ψ keys x₀ s ω t a () i ∈ Metric.closedBall (0 : Fin m → ℝ) j} := by
      have := probReal_compl_eq_one_sub (μ := P) hwR
      exact this
    rw [h3, ← e1, h1]
    linarith

/-- Two electrons with a Gaussian wavefunction, every walker of three devices placed 100 away from where it belongs, width 1/10: an evaluation that exists reports the mean
square of a coordinate, a quantity without bound, right to a thousandth, but for a chance of a thousandth. -/
example : ∃ T : ℕ, ∃ (Ω Key : Type) (_ : MeasurableSpace Ω) (P : Measure Ω) (_ : IsProbabilityMeasure P) (g : RandomRng Ω Key (Fin 6 → ℝ) 5) (keys : ℕ → Fin 3 → Key) (r : Ω → ℂ),
    (∀ ω, reported ⟨10, 1 / 10, T + 1, 1 / 2, 55 / 100⟩ g gaussianMove (fun x => Complex.ofReal (Real.exp (-∑ j, x j ^ 2))) (fun x => ((x 0 ^ 2 : ℝ) : ℂ)) keys
        (fun _ _ _ _ _ => 100) (init ⟨10, 1 / 10, T + 1, 1 / 2, 55 / 100⟩) T ω = some (r ω)) ∧
    P.real {ω | 1 / 1000 ≤ ‖r ω - ∫ x, ((x 0 ^ 2 : ℝ) : ℂ) ∂walkerLaw volume (fun x : Fin 6 → ℝ => Complex.ofReal (Real.exp (-∑ j, x j ^ 2)))‖} ≤ 1 / 1000 := by
  have hψ : Measurable fun x : Fin 6 → ℝ => Complex.ofReal (Real.exp (-∑ j, x j ^ 2)) := by fun_prop
  have e : (fun x : Fin 6 → ℝ => ‖Complex.ofReal (Real.exp (-∑ j, x j ^ 2))‖ ^ 2) = fun x => Real.exp (∑ j, -2 * x j ^ 2) := by
    funext x
    rw [Complex.norm_real, Real.norm_eq_abs, Real.abs_exp, ← Real.exp_nat_mul, ← Finset.mul_sum]
    congr 1
    push_cast
    ring
  have hi : Integrable fun x : Fin 6 → ℝ => Real.exp (∑ j, -2 * x j ^ 2) := by
    simp_rw [Real.exp_sum]
    exact Integrable.fintype_prod (f := fun _ x => Real.exp (-2 * x ^ 2)) fun _ => integrable_exp_neg_mul_sq (by norm_num)
  have hZ : 0 < ∫ y : Fin 6 → ℝ, ‖Complex.ofReal (Real.exp (-∑ j, y j ^ 2))‖ ^ 2 := by rw [e]; exact integral_exp_pos hi
  obtain ⟨h, -⟩ := c139_molecule (σ := 1 / 10) hψ (by rw [e]; exact hi) hZ (by norm_num)
  have hsq : Integrable (fun x : Fin 6 → ℝ => ((x 0 ^ 2 : ℝ) : ℂ)) (walkerLaw volume fun x : Fin 6 → ℝ => Complex.ofReal (Real.exp (-∑ j, x j ^ 2))) := by
    refine Integrable.ofReal ?_
    have hmd : Measurable fun x : Fin 6 → ℝ => ENNReal.ofReal (‖Complex.ofReal (Real.exp (-∑ j, x j ^ 2))‖ ^ 2 / ∫ y : Fin 6 → ℝ, ‖Complex.ofReal (Real.exp (-∑ j, y j ^ 2))‖ ^ 2) :=
      ((hψ.norm.pow_const 2).div_const _).ennreal_ofReal
    unfold walkerLaw
    rw [integrable_withDensity_iff_integrable_smul' hmd (Filter.Eventually.of_forall fun x => ENNReal.ofReal_lt_top)]
    have : Integrable fun x : Fin 6 → ℝ => ∏ j, (if j = 0 then x j ^ 2 * Real.exp (-2 * x j ^ 2) else Real.exp (-2 * x j ^ 2)) :=
      Integrable.fintype_prod (f := fun j x => if j = (0 : Fin 6) then x ^ 2 * Real.exp (-2 * x ^ 2) else Real.exp (-2 * x ^ 2)) fun j => by
        by_cases hj : j = 0
        · simp only [if_pos hj]
          have := integrable_rpow_mul_exp_neg_mul_sq (b := 2) (by norm_num) (s := 2) (by norm_num)
          simpa using this
        · simp only [if_neg hj]
          exact integrable_exp_neg_mul_sq (by norm_num)
    generalize (∫ y : Fin 6 → ℝ, ‖Complex.ofReal (Real.exp (-∑ j, y j ^ 2))‖ ^ 2) = Z at hZ ⊢
    refine (this.div_const Z).congr (Filter.Eventually.of_forall fun x => ?_)
    have e2 : ‖Complex.ofReal (Real.exp (-∑ j, x j ^ 2))‖ ^ 2 = Real.exp (∑ j, -2 * x j ^ 2) := congrFun e x
    have e3 : ∏ j, (if j = 0 then x j ^ 2 * Real.exp (-2 * x j ^ 2) else Real.exp (-2 * x j ^ 2)) = x 0 ^ 2 * ∏ j, Real.exp (-2 * x j ^ 2) := by
      rw [Fin.prod_univ_succ, Fin.prod_univ_succ (fun j => Real.exp (-2 * x j ^ 2)), if_pos rfl, mul_assoc]
      refine congrArg (fun z => x 0 ^ 2 * (Real.exp (-2 * x 0 ^ 2) * z)) (Finset.prod_congr rfl fun j _ => ?_)
      rw [if_neg (Fin.succ_ne_zero j)]
    show (∏ j, (if j = 0 then x j ^ 2 * Real.exp (-2 * x j ^ 2) else Real.exp (-2 * x j ^ 2))) / Z = _ • x 0 ^ 2
    rw [e3, e2, Real.exp_sum]
    have hp : 0 ≤ ∏ j, Real.exp (-2 * x j ^ 2) := Finset.prod_nonneg fun j _ => (Real.exp_pos _).le
    generalize (∏ j, Real.exp (-2 * x j ^ 2)) = w at hp ⊢
    rw [ENNReal.toReal_ofReal (div_nonneg hp hZ.le), smul_eq_mul]
    ring
  obtain ⟨M, hM⟩ := h (fun x => ((x 0 ^ 2 : ℝ) : ℂ)) (by fun_prop) hsq 5 3 (by norm_num) (by norm_num) (fun _ _ _ => 100) (1 / 1000) (1 / 1000) (by norm_num) (by norm_num)
  have hst : Steady ⟨10, 1 / 10, M + 1, 1 / 2, 55 / 100⟩ (init ⟨10, 1 / 10, M + 1, 1 / 2, 55 / 100⟩) M := by
    left
    intro k h1 h2
    show (0 + k) % (M + 1) ≠ 0
    rw [Nat.zero_add, Nat.mod_eq_of_lt (by omega)]
    omega
  obtain ⟨Ω, Key, _, P, _, g, keys, S⟩ := c137_exists (V := Fin 6 → ℝ) (Measure.pi fun _ : Fin 6 => gaussianReal 0 1) ⟨10, 1 / 10, M + 1, 1 / 2, 55 / 100⟩
    (init ⟨10, 1 / 10, M + 1, 1 / 2, 55 / 100⟩) 3 5 M hst (fun _ _ _ => 100)
  obtain ⟨r, h1, -, h2⟩ := hM Ω Key _ P inferInstance _ g keys _ _ M S (by norm_num) le_rfl (fun a i => Filter.Eventually.of_forall fun ω => rfl)
  exact ⟨M, Ω, Key, _, P, inferInstance, g, keys, r, h1, h2⟩

end Jaqmc.Average.Props
