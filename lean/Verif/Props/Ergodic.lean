import Verif.Lemmas.MetropolisErgodic
import Verif.Lemmas.Spread
import Verif.Lemmas.SphereSpread
import Verif.Props.Mixing
/-!
C138: from any starting positions the walkers converge to the distribution of the wavefunction, for molecules too and for wavefunctions that are not bounded.
-/
namespace Jaqmc.Average.Props
open Jaqmc.Sampler Jaqmc.Sampler.Props Jaqmc.Average Jaqmc.Average.Spec Jaqmc.Average.Ergodic Jaqmc.LossGrad.Spec Jaqmc.Geometry Jaqmc.Geometry.Props.Sphere
open MeasureTheory ProbabilityTheory Filter Topology
open scoped ENNReal Classical

variable {V N Ω Key : Type} {n d : ℕ} [MeasurableSpace V] [MeasurableSpace N] [MeasurableSpace Ω]

/-! ### Specification -/

/-- A proposal that can reach everywhere: as likely one way as the other; never into a set without volume; from every place it covers some places the wavefunction is
not zero at, and two proposals in a row can go between almost any two places. -/
structure Explores (μ : Measure V) (ν : Measure N) (ψ : V → ℂ) (move : N → V → V) : Prop where
  measurable : Measurable fun p : V × N => move p.2 p.1
  reversible : Reversible μ ν move
  spread : ∀ x, ν.map (fun z => move z x) ≪ μ
  covers : ∃ k : V × V → ℝ≥0∞, Measurable k ∧ (∀ x, ∀ f : V → ℝ≥0∞, Measurable f → ∫⁻ y, k (x, y) * f y ∂μ ≤ ∫⁻ z, f (move z x) ∂ν) ∧
    (∀ x, ∃ᶠ y in ae (walkerLaw μ ψ), k (x, y) ≠ 0) ∧
    ∀ᵐ p ∂((walkerLaw μ ψ).prod (walkerLaw μ ψ)), ∃ᶠ z in ae (walkerLaw μ ψ), k (p.1, z) ≠ 0 ∧ k (z, p.2) ≠ 0

/-- Burn-in works from any start: for every starting place and every `ε` there is a number of updates after which, in every run that starts there (however many walkers, devices
and steps), the chance to find the walker in any region, and the average of any bounded quantity, are off by at most `ε` (times the bound). -/
def BurnsIn (μ : Measure V) (ν : Measure N) (ψ : V → ℂ) (move : ℝ → N → V → V) (σ : ℝ) : Prop :=
  ∀ (x : V) (ε : ℝ), 0 < ε → ∃ M : ℕ, ∀ (Ω Key : Type) (_ : MeasurableSpace Ω) (P : Measure Ω) (_ : IsProbabilityMeasure P) (n d : ℕ) (cfg : Cfg) (g : RandomRng Ω Key N n)
    (keys : ℕ → Fin d → Key) (x₀ : Ω → Fin d → Batch Unit n V) (s : State) (T : ℕ), Run P ν σ cfg g keys x₀ s T →
    ∀ t ≤ T, M ≤ t * cfg.steps → ∀ a i, (∀ᵐ ω ∂P, x₀ ω a () i = x) →
    (∀ R : Set V, MeasurableSet R → |P.real {ω | walkers cfg g move ψ keys x₀ s ω t a () i ∈ R} - (walkerLaw μ ψ).real R| ≤ ε) ∧
    (∀ h : V → ℝ, Measurable h → ∀ B, (∀ y, |h y| ≤ B) → |∫ ω, h (walkers cfg g move ψ keys x₀ s ω t a () i) ∂P - ∫ y, h y ∂walkerLaw μ ψ| ≤ ε * B)

/-- Starting places drawn from any distribution, independently of the draws: the averages of bounded quantities converge. -/
def BurnsInRandom (μ : Measure V) (ν : Measure N) (ψ : V → ℂ) (move : ℝ → N → V → V) (σ : ℝ) : Prop :=
  ∀ start : Measure V, IsProbabilityMeasure start → ∀ h : V → ℝ, Measurable h → (∀ y, |h y| ≤ 1) → ∀ ε : ℝ, 0 < ε →
    ∃ M : ℕ, ∀ (Ω Key : Type) (_ : MeasurableSpace Ω) (P : Measure Ω) (_ : IsProbabilityMeasure P) (n d : ℕ) (cfg : Cfg) (g : RandomRng Ω Key N n)
      (keys : ℕ → Fin d → Key) (x₀ : Ω → Fin d → Batch Unit n V) (s : State) (T : ℕ), Run P ν σ cfg g keys x₀ s T →
      ∀ t ≤ T, M ≤ t * cfg.steps → ∀ a i, (P.map fun ω => x₀ ω a () i) = start →
      |∫ ω, h (walkers cfg g move ψ keys x₀ s ω t a () i) ∂P - ∫ y, h y ∂walkerLaw μ ψ| ≤ ε

/-- A long enough evaluation from any start reports the energy on average, if the local energy is bounded. -/
def ReportsEnergy (μ : Measure V) (ν : Measure N) (ψ : V → ℂ) (move : ℝ → N → V → V) (σ : ℝ) : Prop :=
  ∀ (H : L2C μ →ₗ.[ℂ] L2C μ), Symmetric H → ∀ φ : H.domain, (φ : L2C μ) ≠ 0 → (φ : L2C μ) =ᵐ[μ] ψ → ∀ e : V → ℂ, IsLocalEnergy H φ e → Measurable e → ∀ B, (∀ x, ‖e x‖ ≤ B) →
    ∀ n d : ℕ, 0 < n → 0 < d → ∀ (y : Fin d → Fin n → V) (ε : ℝ), 0 < ε →
    ∃ M : ℕ, ∀ (Ω Key : Type) (_ : MeasurableSpace Ω) (P : Measure Ω) (_ : IsProbabilityMeasure P) (cfg : Cfg) (g : RandomRng Ω Key N n)
      (keys : ℕ → Fin d → Key) (x₀ : Ω → Fin d → Batch Unit n V) (s : State) (T : ℕ), Run P ν σ cfg g keys x₀ s T → 0 < cfg.steps → M ≤ T →
      (∀ a i, ∀ᵐ ω ∂P, x₀ ω a () i = y a i) →
      ∃ r : Ω → ℂ, (∀ ω, reported cfg g move ψ e keys x₀ s T ω = some (r ω)) ∧ Integrable r P ∧ ‖∫ ω, r ω ∂P - (energy H φ : ℂ)‖ ≤ ε

/-! ### Proofs -/

/-- The average over a walker after `k` sampling steps, as repeated averaging over one update. -/
theorem run_average {P : Measure Ω} [IsProbabilityMeasure P] {ν : Measure N} [IsProbabilityMeasure ν] {ψ : V → ℂ} (hψ : Measurable ψ)
    {move : ℝ → N → V → V} {σ : ℝ} (hmv : Measurable fun p : V × N => move σ p.2 p.1) {cfg : Cfg} {g : RandomRng Ω Key N n}
    {keys : ℕ → Fin d → Key} {x₀ : Ω → Fin d → Batch Unit n V} {s : State} {T : ℕ} (S : Run P ν σ cfg g keys x₀ s T) (k : ℕ) (hk : k ≤ T) (a : Fin d) (i : Fin n)
    {h : V → ℝ} (hh : Bdd h 1) :
    ∫ ω, h (walkers cfg g move ψ keys x₀ s ω k a () i) ∂P = ∫ x, (U (ν.prod unif) (metro ψ (move σ)))^[k * cfg.steps] h x ∂(P.map fun ω => x₀ ω a () i) := by
  have ha : Measurable fun y => ‖ψ y‖ ^ 2 := hψ.norm.pow_const 2
  have hN : Nonempty N := nonempty_of_isProbabilityMeasure ν
  have hu : ∀ k i ω, g.uniform k i ω ∈ Set.Ico (0 : ℝ) 1 := fun k i ω => (S.draws i).range k ω
  have hdr : Measurable fun ω => fun k => (g.noise k i ω, g.uniform k i ω) := measurable_pi_iff.mpr (S.draws i).measurable
  simp_rw [walkers_chain cfg g hu move ψ keys x₀ s T S.steady _ a i k hk, S.width]
  set ks := pairs g.split3 (fun t => keys t a) cfg.steps k with hks
  have hlen : ks.length = k * cfg.steps := pairs_length _ _ _ _
  have hnd : (allKeys ks).Nodup := by rw [hks, allKeys_pairs]; exact keysUsed_nodup (S.fresh a) hk
  have hF : Measurable fun p : V × (Key → N × ℝ) => h (chain (fun y => ‖ψ y‖ ^ 2) (move σ) p.2 p.1 ks) := hh.meas.comp (chain_measurable ha hmv ks)
  have hmap := (indepFun_iff_map_prod_eq_prod_map_map (S.measurable a i).aemeasurable hdr.aemeasurable).mp (S.indep a i)
  have hpd := Measure.isProbabilityMeasure_map (μ := P) hdr.aemeasurable
  have hpx := Measure.isProbabilityMeasure_map (μ := P) (S.measurable a i).aemeasurable
  have := integral_map (μ := P) ((S.measurable a i).prodMk hdr).aemeasurable hF.aestronglyMeasurable
  rw [← this, hmap, integral_prod _ (bounded_integrable _ hF fun p => abs_le.mp (hh.le _))]
  refine integral_congr_ae (Filter.Eventually.of_forall fun x => ?_)
  have e1 := integral_map (μ := P) hdr.aemeasurable (hF.comp (measurable_prodMk_left (x := x))).aestronglyMeasurable
  refine e1.trans ?_
  have e2 := chain_iter (S.draws i) hψ hmv ks hnd x hh
  rw [hlen] at e2
  exact e2

/-- One update from anywhere: with some chance less than one stay, else land where the wavefunction is. -/
theorem update_point {μ : Measure V} {ν : Measure N} [IsProbabilityMeasure ν] {ψ : V → ℂ} (hψ : Measurable ψ) (hZ : 0 < ∫ y, ‖ψ y‖ ^ 2 ∂μ)
    [IsProbabilityMeasure (walkerLaw μ ψ)] {move : N → V → V} (E : Explores μ ν ψ move) (x : V) {ε : ℝ} (hε : 0 < ε) :
    ∃ N, ∀ n ≥ N, ∀ f : V → ℝ, Bdd f 1 → |(U (ν.prod unif) (metro ψ move))^[n] f x - ∫ y, f y ∂(walkerLaw μ ψ)| ≤ ε := by
  obtain ⟨hmv, hr, hac', k, hk, hc, h1', h2⟩ := E
  have hac := hac' x
  have h1 := h1' x
  have hA := accepted_measurable hψ hmv x
  have hpos := accepted_pos (μ := μ) (ν := ν) hψ hmv hk x (hc x) h1
  have hfin := landing_finite ν ψ move x
  have hsum : (ν.prod unif).real (accepted ψ move x)ᶜ + (landing ν ψ move x).real Set.univ = 1 := by
    unfold Measure.real
    rw [landing_mass hmv x]
    have := prob_compl_eq_one_sub (μ := ν.prod unif) hA
    rw [this, ENNReal.toReal_sub_of_le prob_le_one ENNReal.one_ne_top]
    simp
  have hlt : (ν.prod unif).real (accepted ψ move x)ᶜ < 1 := by
    have : 0 < (landing ν ψ move x).real Set.univ := by
      unfold Measure.real
      rw [landing_mass hmv x]
      exact ENNReal.toReal_pos hpos (measure_ne_top _ _)
    linarith
  exact from_point (metro_rev hψ hmv hr) (metro_reach hψ hZ hmv hk hc h2) x (landing ν ψ move x) (landing_ac hψ hZ hmv x hac) measureReal_nonneg hlt hsum
    (fun f hf => update_eq hψ hmv x hf) hε

/-- **C138.** A proposal that can reach everywhere brings the walkers to the distribution of the wavefunction from any start.  The wavefunction need not be bounded. -/
theorem c138_converge {μ : Measure V} {ν : Measure N} [IsProbabilityMeasure ν] {ψ : V → ℂ} (hψ : Measurable ψ) (hZ : 0 < ∫ y, ‖ψ y‖ ^ 2 ∂μ)
    [IsProbabilityMeasure (walkerLaw μ ψ)] {move : ℝ → N → V → V} {σ : ℝ} (E : Explores μ ν ψ (move σ)) : BurnsIn μ ν ψ move σ := by
  intro x ε hε
  obtain ⟨M, hM⟩ := update_point hψ hZ E x hε
  have hmv := E.measurable
  have hr := E.reversible
  refine ⟨M, fun Ω Key _ P _ n d cfg g keys x₀ s T S t ht hMt a i hx => ?_⟩
  have hR := metro_rev hψ hmv hr
  have hone : ∀ h : V → ℝ, Measurable h → (∀ y, |h y| ≤ 1) → |∫ ω, h (walkers cfg g move ψ keys x₀ s ω t a () i) ∂P - ∫ y, h y ∂walkerLaw μ ψ| ≤ ε := by
    intro h hh hb
    have hB : Bdd h 1 := ⟨hh, hb⟩
    rw [run_average hψ hmv S t ht a i hB, integral_map (S.measurable a i).aemeasurable (hB.iter hR _).meas.aestronglyMeasurable,
      integral_congr_ae (g := fun _ => (U (ν.prod unif) (metro ψ (move σ)))^[t * cfg.steps] h x) (by filter_upwards [hx] with ω e; rw [e])]
    simp only [integral_const, probReal_univ, one_smul]
    exact hM _ hMt h hB
  refine ⟨fun R hR => ?_, fun h hh B hb => ?_⟩
  · have := hone (R.indicator fun _ => 1) (measurable_const.indicator hR) fun y => by by_cases hy : y ∈ R <;> simp [hy]
    have hw := run_walker_measurable hψ hmv S t ht a i
    have e1 : ∫ ω, R.indicator (fun _ => (1 : ℝ)) (walkers cfg g move ψ keys x₀ s ω t a () i) ∂P = P.real {ω | walkers cfg g move ψ keys x₀ s ω t a () i ∈ R} := by
      have e : (fun ω => R.indicator (fun _ => (1 : ℝ)) (walkers cfg g move ψ keys x₀ s ω t a () i)) =
          ({ω | walkers cfg g move ψ keys x₀ s ω t a () i ∈ R}).indicator fun _ => 1 := by
        funext ω
        rfl
      have hwR : MeasurableSet {ω | walkers cfg g move ψ keys x₀ s ω t a () i ∈ R} := hw hR
      rw [e, integral_indicator_const _ hwR, smul_eq_mul, mul_one]
    have e2 : ∫ y, R.indicator (fun _ => (1 : ℝ)) y ∂walkerLaw μ ψ = (walkerLaw μ ψ).real R := by
      rw [integral_indicator_const _ hR, smul_eq_mul, mul_one]
    rwa [e1, e2] at this
  · rcases le_or_gt B 0 with h0 | h0
    · have hz : ∀ y, h y = 0 := fun y => abs_eq_zero.mp (le_antisymm ((hb y).trans h0) (abs_nonneg _))
      have hB0 : B = 0 := le_antisymm h0 ((abs_nonneg _).trans (hb x))
      simp [hz, hB0]
    · have := hone (fun y => h y / B) (hh.div_const B) fun y => by
        rw [abs_div, abs_of_pos h0, div_le_one h0]
        exact hb y
      rw [integral_div, integral_div, ← sub_div, abs_div, abs_of_pos h0, div_le_iff₀ h0] at this
      exact this

/-- **C138.** The same for random starts. -/
theorem c138_random {μ : Measure V} {ν : Measure N} [IsProbabilityMeasure ν] {ψ : V → ℂ} (hψ : Measurable ψ) (hZ : 0 < ∫ y, ‖ψ y‖ ^ 2 ∂μ)
    [IsProbabilityMeasure (walkerLaw μ ψ)] {move : ℝ → N → V → V} {σ : ℝ} (E : Explores μ ν ψ (move σ)) : BurnsInRandom μ ν ψ move σ := by
  intro start _ h hh hb ε hε
  have hmv := E.measurable
  have hr := E.reversible
  have hB : Bdd h 1 := ⟨hh, hb⟩
  have hR := metro_rev hψ hmv hr
  have hlim : Tendsto (fun q : ℕ => ∫ x, (U (ν.prod unif) (metro ψ (move σ)))^[q] h x ∂start) atTop (𝓝 (∫ _, (∫ y, h y ∂walkerLaw μ ψ) ∂start)) := by
    refine tendsto_integral_of_dominated_convergence (fun _ => 1) (fun q => (hB.iter hR q).meas.aestronglyMeasurable) (integrable_const _)
      (fun q => Filter.Eventually.of_forall fun x => (hB.iter hR q).le x) (Filter.Eventually.of_forall fun x => ?_)
    rw [Metric.tendsto_atTop]
    intro δ hδ
    obtain ⟨M, hM⟩ := update_point hψ hZ E x (half_pos hδ)
    refine ⟨M, fun q hq => ?_⟩
    rw [Real.dist_eq]
    linarith [hM q hq h hB]
  simp only [integral_const, probReal_univ, one_smul] at hlim
  rw [Metric.tendsto_atTop] at hlim
  obtain ⟨M, hM⟩ := hlim ε hε
  refine ⟨M, fun Ω Key _ P _ n d cfg g keys x₀ s T S t ht hMt a i hx => ?_⟩
  rw [run_average hψ hmv S t ht a i hB, hx]
  have := hM _ hMt
  rw [Real.dist_eq] at this
  exact this.le

/-- Averages of a sequence that is small except at its beginning. -/
theorem average_small {M q T : ℕ} (hq : 0 < q) {η : ℝ} (h0 : 0 ≤ η) (hT : M * 2 ≤ η * T) :
    ∑ t ∈ Finset.range T, (if M ≤ (t + 1) * q then η else 2) ≤ 2 * η * T := by
  have h1 : ∀ t ∈ Finset.range T, (if M ≤ (t + 1) * q then η else 2) ≤ η + (if t < M then (2 : ℝ) else 0) := by
    intro t _
    split_ifs with h h' h'
    · linarith
    · linarith
    · linarith
    · exact absurd (by nlinarith : M ≤ (t + 1) * q) h
  refine (Finset.sum_le_sum h1).trans ?_
  rw [Finset.sum_add_distrib, Finset.sum_const, Finset.card_range, nsmul_eq_mul, ← Finset.sum_filter, Finset.sum_const, nsmul_eq_mul]
  have hc : ((Finset.range T).filter fun t => t < M).card ≤ M := by
    calc ((Finset.range T).filter fun t => t < M).card ≤ (Finset.range M).card := Finset.card_le_card fun t ht => by
          simp only [Finset.mem_filter, Finset.mem_range] at ht ⊢
          exact ht.2
      _ = M := Finset.card_range M
  have hc' : (((Finset.range T).filter fun t => t < M).card : ℝ) ≤ M := by exact_mod_cast hc
  linarith

/-- **C138.** What a long evaluation reports on average, from any start. -/
theorem c138_reported {μ : Measure V} {ν : Measure N} [IsProbabilityMeasure ν] {ψ : V → ℂ} (hψ : Measurable ψ) (hZ : 0 < ∫ y, ‖ψ y‖ ^ 2 ∂μ)
    [IsProbabilityMeasure (walkerLaw μ ψ)] {move : ℝ → N → V → V} {σ : ℝ} (E : Explores μ ν ψ (move σ)) : ReportsEnergy μ ν ψ move σ := by
  intro H hs φ hφ0 hφ e he hem B hB n d hn hd y ε hε
  have hB0 : 0 ≤ B := by
    obtain ⟨x⟩ := nonempty_of_isProbabilityMeasure (walkerLaw μ ψ)
    exact (norm_nonneg _).trans (hB x)
  set η := ε / (4 * B + 4) with hη
  have hη0 : 0 < η := by positivity
  have hbi := c138_converge hψ hZ E
  choose M hM using fun (a : Fin d) (i : Fin n) => hbi (y a i) η hη0
  set M' := ∑ a, ∑ i, M a i with hM'
  have hle : ∀ a i, M a i ≤ M' := fun a i =>
    (Finset.single_le_sum (f := fun i => M a i) (fun _ _ => Nat.zero_le _) (Finset.mem_univ i)).trans
      (Finset.single_le_sum (f := fun a => ∑ i, M a i) (fun _ _ => Nat.zero_le _) (Finset.mem_univ a))
  obtain ⟨T₀, hT₀⟩ := exists_nat_ge (M' * 2 / η)
  refine ⟨T₀ + 1, fun Ω Key _ P _ cfg g keys x₀ s T S hq hT hx => ?_⟩
  have hTr : (0 : ℝ) < T := by exact_mod_cast (by omega : 0 < T)
  have hT1 : (T₀ : ℝ) ≤ T := by exact_mod_cast (by omega : T₀ ≤ T)
  obtain ⟨r, hr, hi, hn'⟩ := reported_near hψ E.measurable S hd hn (by omega) (δ := fun k => if M' ≤ k * cfg.steps then η else 2) (fun k hk a i h hh B hb => by
    split_ifs with hk'
    · exact (hM a i Ω Key _ P inferInstance n d cfg g keys x₀ s T S k hk ((hle a i).trans hk') a i (hx a i)).2 h hh B hb
    · have hw := run_walker_measurable hψ E.measurable S k hk a i
      have h1 := average_between P (hh.comp hw) fun ω => abs_le.mp (hb (walkers cfg g move ψ keys x₀ s ω k a () i))
      have h2 := average_between (walkerLaw μ ψ) hh fun x => abs_le.mp (hb x)
      simp only [Function.comp] at h1
      rw [abs_le]
      constructor <;> linarith [h1.1, h1.2, h2.1, h2.2]) hs φ hφ0 hφ he hem hB
  refine ⟨r, hr, hi, hn'.trans ?_⟩
  rw [div_le_iff₀ hTr]
  have hs := average_small (M := M') (T := T) hq hη0.le (by
    rw [div_le_iff₀ hη0] at hT₀
    nlinarith)
  calc _ ≤ 2 * η * T * (2 * B) := mul_le_mul_of_nonneg_right hs (by positivity)
    _ = η * (4 * B) * T := by ring
    _ ≤ ε * T := by
        refine mul_le_mul_of_nonneg_right ?_ hTr.le
        rw [hη, div_mul_eq_mul_div, div_le_iff₀ (by positivity)]
        nlinarith

/-! ### Molecules and solids -/

theorem frequently_of_all {π : Measure V} [IsProbabilityMeasure π] {p : V → Prop} (h : ∀ y, p y) : ∃ᶠ y in ae π, p y :=
  (Filter.Eventually.of_forall h).frequently

theorem explores_molecule {m : ℕ} (ψ : (Fin m → ℝ) → ℂ) [IsProbabilityMeasure (walkerLaw (volume : Measure (Fin m → ℝ)) ψ)] {σ : ℝ} (hσ : σ ≠ 0) :
    Explores volume (Measure.pi fun _ : Fin m => gaussianReal 0 1) ψ (gaussianMove σ) :=
  ⟨by unfold gaussianMove; fun_prop, c135_gaussian σ, gaussian_ac hσ, density σ, density_measurable σ, gaussian_density hσ,
    fun x => frequently_of_all fun y => density_pos hσ _,
    Filter.Eventually.of_forall fun p => frequently_of_all fun y => ⟨density_pos hσ _, density_pos hσ _⟩⟩

theorem explores_solid {m c : ℕ} (L : Matrix (Fin c) (Fin c) ℝ) (hL : IsUnit L.det) (ψ : (Fin m → Fin c → ℝ) → ℂ) [IsProbabilityMeasure (walkerLaw (cells m L) ψ)] {σ : ℝ}
    (hσ : σ ≠ 0) : Explores (cells m L) (Measure.pi fun _ : Fin m => Measure.pi fun _ : Fin c => gaussianReal 0 1) ψ (pbcMoveAll L σ) := by
  have hp : Geometry.Cell.share L σ ^ m ≠ 0 := pow_ne_zero m (Geometry.Cell.share_pos L hσ)
  refine ⟨pbcMoveAll_measurable L σ, c136_cell L hL σ, cells_ac L hL hσ, fun _ => Geometry.Cell.share L σ ^ m, measurable_const, fun x f hf => ?_,
    fun x => frequently_of_all fun y => hp, Filter.Eventually.of_forall fun p => frequently_of_all fun y => ⟨hp, hp⟩⟩
  rw [lintegral_const_mul _ hf]
  exact Geometry.Cell.cells_cover L hL hσ x f hf

/-- The squared wavefunction over its integral is a distribution. -/
theorem walkerLaw_probability {μ : Measure V} {ψ : V → ℂ} (hi : Integrable (fun x => ‖ψ x‖ ^ 2) μ) (hZ : 0 < ∫ y, ‖ψ y‖ ^ 2 ∂μ) :
    IsProbabilityMeasure (walkerLaw μ ψ) := by
  constructor
  unfold walkerLaw
  rw [withDensity_apply _ MeasurableSet.univ, Measure.restrict_univ, ← ofReal_integral_eq_lintegral_ofReal (hi.div_const _)
    (Filter.Eventually.of_forall fun x => by positivity), integral_div, div_self hZ.ne', ENNReal.ofReal_one]

/-- **C138.** Molecules.  For any measurable wavefunction whose square has a finite integral other than zero, and any proposal width other than zero: from any start, the
walkers converge to the distribution of the wavefunction, and a long evaluation reports the energy. -/
theorem c138_molecule {m : ℕ} {ψ : (Fin m → ℝ) → ℂ} (hψ : Measurable ψ) (hi : Integrable fun x => ‖ψ x‖ ^ 2) (hZ : 0 < ∫ y, ‖ψ y‖ ^ 2) {σ : ℝ} (hσ : σ ≠ 0) :
    BurnsIn volume (Measure.pi fun _ : Fin m => gaussianReal 0 1) ψ gaussianMove σ ∧
    BurnsInRandom volume (Measure.pi fun _ : Fin m => gaussianReal 0 1) ψ gaussianMove σ ∧
    ReportsEnergy volume (Measure.pi fun _ : Fin m => gaussianReal 0 1) ψ gaussianMove σ := by
  have := walkerLaw_probability hi hZ
  have E := explores_molecule ψ hσ
  exact ⟨c138_converge hψ hZ E, c138_random hψ hZ E, c138_reported hψ hZ E⟩

/-- **C138.** Solids, also with wavefunctions that are not bounded. -/
theorem c138_solid {m c : ℕ} (L : Matrix (Fin c) (Fin c) ℝ) (hL : IsUnit L.det) {ψ : (Fin m → Fin c → ℝ) → ℂ} (hψ : Measurable ψ)
    (hi : Integrable (fun x => ‖ψ x‖ ^ 2) (cells m L)) (hZ : 0 < ∫ y, ‖ψ y‖ ^ 2 ∂cells m L) {σ : ℝ} (hσ : σ ≠ 0) :
    BurnsIn (cells m L) (Measure.pi fun _ : Fin m => Measure.pi fun _ : Fin c => gaussianReal 0 1) ψ (pbcMoveAll L) σ ∧
    BurnsInRandom (cells m L) (Measure.pi fun _ : Fin m => Measure.pi fun _ : Fin c => gaussianReal 0 1) ψ (pbcMoveAll L) σ ∧
    ReportsEnergy (cells m L) (Measure.pi fun _ : Fin m => Measure.pi fun _ : Fin c => gaussianReal 0 1) ψ (pbcMoveAll L) σ := by
  have := walkerLaw_probability hi hZ
  have E := explores_solid L hL ψ hσ
  exact ⟨c138_converge hψ hZ E, c138_random hψ hZ E, c138_reported hψ hZ E⟩

/-! ### The sphere -/

open Jaqmc.Geometry.Area in
/-- Almost all pairs of configurations have no two opposite electrons. -/
theorem pairs_not_opposite (m : ℕ) :
    ∀ᵐ p ∂((Measure.pi fun _ : Fin m => area).prod (Measure.pi fun _ : Fin m => area)), ∀ i, dir (p.1 i) + dir (p.2 i) ≠ 0 := by
  rw [ae_all_iff]
  intro i
  have m1 : Measurable fun p : (Fin m → ℝ × ℝ) × (Fin m → ℝ × ℝ) => dir (p.1 i) + dir (p.2 i) :=
    (dir_measurable.comp ((measurable_pi_apply i).comp measurable_fst)).add (dir_measurable.comp ((measurable_pi_apply i).comp measurable_snd))
  have hs : MeasurableSet {p : (Fin m → ℝ × ℝ) × (Fin m → ℝ × ℝ) | dir (p.1 i) + dir (p.2 i) = 0} := measurableSet_eq_fun m1 measurable_const
  have hz : ((Measure.pi fun _ : Fin m => area).prod (Measure.pi fun _ : Fin m => area)) {p : (Fin m → ℝ × ℝ) × (Fin m → ℝ × ℝ) | dir (p.1 i) + dir (p.2 i) = 0} = 0 := by
    rw [Measure.measure_prod_null hs]
    refine Filter.Eventually.of_forall fun x => ?_
    have h : ∀ᵐ y ∂(Measure.pi fun _ : Fin m => area), dir (x i) + dir (y i) ≠ 0 := by
      have h := (Measure.tendsto_eval_ae_ae (μ := fun _ : Fin m => area) (i := i)).eventually (not_opposite (x i))
      exact h
    exact measure_eq_zero_iff_ae_notMem.mpr h
  exact measure_eq_zero_iff_ae_notMem.mp hz

open Jaqmc.Geometry.Area in
theorem explores_sphere {m : ℕ} {ψ : (Fin m → ℝ × ℝ) → ℂ} (hψ : Measurable ψ) (hZ : 0 < ∫ y, ‖ψ y‖ ^ 2 ∂(Measure.pi fun _ : Fin m => area))
    (h0 : ∀ᵐ x ∂(Measure.pi fun _ : Fin m => area), ψ x ≠ 0) [IsProbabilityMeasure (walkerLaw (Measure.pi fun _ : Fin m => area) ψ)] {σ : ℝ}
    (hσ : σ ≠ 0) : Explores (Measure.pi fun _ : Fin m => area) (Measure.pi fun _ : Fin m => drawLaw) ψ (sphereMoveAll σ) := by
  have hst : ∀ q : ℝ × ℝ, Measurable fun z : ℝ × ℝ => sphereStep σ z q := fun q => by
    have h := (step_measurable σ).comp (measurable_prodMk_left (x := q))
    exact h
  have hpr : ∀ q : ℝ × ℝ, IsProbabilityMeasure (drawLaw.map fun z => sphereStep σ z q) := fun q => Measure.isProbabilityMeasure_map (hst q).aemeasurable
  have hlaw : ∀ x : Fin m → ℝ × ℝ, (Measure.pi fun _ : Fin m => drawLaw).map (fun z => sphereMoveAll σ z x) = Measure.pi fun i => drawLaw.map fun z => sphereStep σ z (x i) := fun x =>
    Measure.pi_map_pi (μ := fun _ : Fin m => drawLaw) (f := fun i z => sphereStep σ z (x i)) fun i => (hst (x i)).aemeasurable
  have ha : Measurable fun y => ‖ψ y‖ ^ 2 := hψ.norm.pow_const 2
  have hden : Measurable fun x => ENNReal.ofReal (‖ψ x‖ ^ 2 / ∫ y, ‖ψ y‖ ^ 2 ∂(Measure.pi fun _ : Fin m => area)) := (ha.div_const _).ennreal_ofReal
  have hback : (Measure.pi fun _ : Fin m => area) ≪ walkerLaw (Measure.pi fun _ : Fin m => area) ψ := by
    unfold walkerLaw
    refine withDensity_absolutelyContinuous' hden.aemeasurable ?_
    filter_upwards [h0] with x hx
    exact (ENNReal.ofReal_pos.mpr (div_pos (by positivity) hZ)).ne'
  have hforth : walkerLaw (Measure.pi fun _ : Fin m => area) ψ ≪ Measure.pi fun _ : Fin m => area := withDensity_absolutelyContinuous _ _
  have mk : Measurable fun p : (Fin m → ℝ × ℝ) × (Fin m → ℝ × ℝ) => ∏ i, hop σ (p.1 i, p.2 i) := by
    refine Finset.measurable_prod _ fun i _ => (hop_measurable σ).comp ?_
    exact ((measurable_pi_apply i).comp measurable_fst).prodMk ((measurable_pi_apply i).comp measurable_snd)
  have hmeet : ∀ x y : Fin m → ℝ × ℝ, (∀ i, dir (x i) + dir (y i) ≠ 0) → ∃ᶠ z in ae (walkerLaw (Measure.pi fun _ : Fin m => area) ψ),
      ∏ i, hop σ (x i, z i) ≠ 0 ∧ ∏ i, hop σ (z i, y i) ≠ 0 := by
    intro x y hxy
    refine Filter.Frequently.filter_mono ?_ hback.ae_le
    intro hcon
    have hnull : (Measure.pi fun _ : Fin m => area) (Set.univ.pi fun i => {z | 0 < dir (x i) ⬝ᵥ dir z ∧ 0 < dir z ⬝ᵥ dir (y i)}) = 0 := by
      refine measure_eq_zero_iff_ae_notMem.mpr ?_
      filter_upwards [hcon] with z hz hin
      refine hz ⟨?_, ?_⟩
      · exact Finset.prod_ne_zero_iff.mpr fun i _ => tilt_pos hσ (hin i trivial).1
      · exact Finset.prod_ne_zero_iff.mpr fun i _ => tilt_pos hσ (hin i trivial).2
    rw [Measure.pi_pi, Finset.prod_eq_zero_iff] at hnull
    obtain ⟨i, -, hi⟩ := hnull
    exact meeting (hxy i) hi
  refine ⟨sphereMoveAll_measurable σ, c136_sphere σ, fun x => ?_, fun p => ∏ i, hop σ (p.1 i, p.2 i), mk, fun x f hf => ?_, fun x => ?_, ?_⟩
  · rw [hlaw]
    exact pi_ac _ fun i => hop_ac hσ (x i)
  · have hm : Measurable fun z : Fin m → ℝ × ℝ => sphereMoveAll σ z x := by
      have h := (sphereMoveAll_measurable (m := m) σ).comp (measurable_prodMk_left (x := x))
      exact h
    rw [← lintegral_map hf hm, hlaw]
    refine pi_covers_by (fun i y => hop σ (x i, y)) (fun i => (hop_measurable σ).comp measurable_prodMk_left) _ (fun i g hg => ?_) f hf
    rw [lintegral_map hg (hst (x i)), hop_law hσ (x i) g hg]
  · have hd : ∀ i, dir (x i) + dir (x i) ≠ 0 := by
      intro i h
      have h1 := dir_dot (x i)
      have h2 : dir (x i) = 0 := by
        have := self_eq_neg.mp (eq_neg_of_add_eq_zero_right h)
        exact this
      rw [h2] at h1
      simp at h1
    exact (hmeet x x hd).mono fun z hz => hz.1
  · have h2 : (walkerLaw (Measure.pi fun _ : Fin m => area) ψ).prod (walkerLaw (Measure.pi fun _ : Fin m => area) ψ) ≪
        (Measure.pi fun _ : Fin m => area).prod (Measure.pi fun _ : Fin m => area) := hforth.prod hforth
    filter_upwards [h2.ae_le (pairs_not_opposite m)] with p hp
    exact hmeet p.1 p.2 hp

open Jaqmc.Geometry.Area in
/-- **C138.** Quantum Hall systems on the sphere, for wavefunctions that are zero only on a set without area. -/
theorem c138_sphere {m : ℕ} {ψ : (Fin m → ℝ × ℝ) → ℂ} (hψ : Measurable ψ) (hi : Integrable (fun x => ‖ψ x‖ ^ 2) (Measure.pi fun _ : Fin m => area))
    (h0 : ∀ᵐ x ∂(Measure.pi fun _ : Fin m => area), ψ x ≠ 0) (hZ : 0 < ∫ y, ‖ψ y‖ ^ 2 ∂(Measure.pi fun _ : Fin m => area)) {σ : ℝ} (hσ : σ ≠ 0) :
    BurnsIn (Measure.pi fun _ : Fin m => area) (Measure.pi fun _ : Fin m => drawLaw) ψ sphereMoveAll σ ∧
    BurnsInRandom (Measure.pi fun _ : Fin m => area) (Measure.pi fun _ : Fin m => drawLaw) ψ sphereMoveAll σ ∧
    ReportsEnergy (Measure.pi fun _ : Fin m => area) (Measure.pi fun _ : Fin m => drawLaw) ψ sphereMoveAll σ := by
  have := walkerLaw_probability hi hZ
  have E := explores_sphere hψ hZ h0 hσ
  exact ⟨c138_converge hψ hZ E, c138_random hψ hZ E, c138_reported hψ hZ E⟩

open Jaqmc.Geometry.Area in
/-- A move on the sphere goes less than a quarter turn. -/
theorem quarter_turn (q : ℝ × ℝ) (σ a u : ℝ) : 0 < dir q ⬝ᵥ sphereTarget q.1 q.2 σ a u := by
  have e : sphereTarget q.1 q.2 σ a u = (frame q).mulVec (cartesian (Real.arctan (a * σ)) (u * 2 * Real.pi)) := rfl
  rw [e, ← frame_third, Matrix.mulVec_mulVec, (frame_isRot q).orth, Matrix.one_mulVec]
  exact Real.cos_arctan_pos _

open Jaqmc.Geometry.Area in
/-- So it does not go from one of two opposite caps to the other. -/
theorem same_cap (q : ℝ × ℝ) (σ : ℝ) (z : ℝ × ℝ) (h : 0 < Real.cos q.1) (h2 : 1 / 2 < Real.cos q.1 ^ 2) (h' : 1 / 2 < Real.cos (sphereStep σ z q).1 ^ 2) :
    0 < Real.cos (sphereStep σ z q).1 := by
  have hu := Jaqmc.Geometry.Props.target_unit q.1 q.2 σ z.1 z.2
  unfold Jaqmc.Geometry.Spec.dot at hu
  have hdot := quarter_turn q σ z.1 z.2
  set X := sphereTarget q.1 q.2 σ z.1 z.2 with hX
  have hd := dir_dot q
  have hq2 : dir q 2 = Real.cos q.1 := rfl
  simp only [dotProduct, Fin.sum_univ_three] at hdot hd
  have hb : -1 ≤ X 2 ∧ X 2 ≤ 1 := by constructor <;> nlinarith [sq_nonneg (X 0), sq_nonneg (X 1)]
  have hcos : Real.cos (Real.arccos (clip1 (X 2))) = X 2 := by rw [Jaqmc.Geometry.Props.clip1_of hb.1 hb.2, Real.cos_arccos hb.1 hb.2]
  rw [step_ang] at h' ⊢
  rw [← hX] at h' ⊢
  unfold ang toAngles at h' ⊢
  dsimp only at h' ⊢
  split_ifs at h' ⊢ with hs
  · simp
  · simp only [Option.getD_some] at h' ⊢
    rw [hcos] at h' ⊢
    by_contra hcon
    have hn : X 2 ≤ 0 := not_lt.mp hcon
    rw [hq2] at hd hdot
    have h3 : 1 / 2 < Real.cos q.1 * -X 2 := by
      have : (1 / 2 : ℝ) ^ 2 < (Real.cos q.1 * -X 2) ^ 2 := by nlinarith
      exact lt_of_pow_lt_pow_left₀ 2 (mul_nonneg h.le (by linarith)) this
    nlinarith [sq_nonneg (dir q 0 - X 0), sq_nonneg (dir q 1 - X 1)]

open Jaqmc.Geometry.Area in
/-- **C138.** On the sphere the condition that the wavefunction is nowhere zero on a set with area is needed: for a wavefunction on two opposite caps the walkers
of the one never come to the other, however long the run. -/
theorem c138_caps (σ : ℝ) : ¬ BurnsIn (Measure.pi fun _ : Fin 1 => area) (Measure.pi fun _ : Fin 1 => drawLaw)
    (fun x : Fin 1 → ℝ × ℝ => if 1 / 2 < Real.cos (x 0).1 ^ 2 then 1 else 0) sphereMoveAll σ := by
  intro hB
  set ψ : (Fin 1 → ℝ × ℝ) → ℂ := fun x => if 1 / 2 < Real.cos (x 0).1 ^ 2 then 1 else 0 with hψd
  have mc : Measurable fun x : Fin 1 → ℝ × ℝ => Real.cos (x 0).1 := Real.measurable_cos.comp (measurable_fst.comp (measurable_pi_apply 0))
  have hψ : Measurable ψ := Measurable.ite (measurableSet_lt measurable_const (mc.pow_const 2)) measurable_const measurable_const
  set π := walkerLaw (Measure.pi fun _ : Fin 1 => area) ψ with hπ
  set R : Set (Fin 1 → ℝ × ℝ) := {x | Real.cos (x 0).1 < 0} with hR
  have mR : MeasurableSet R := measurableSet_lt mc measurable_const
  have hn : ∀ x, ‖ψ x‖ ^ 2 = if 1 / 2 < Real.cos (x 0).1 ^ 2 then 1 else 0 := by
    intro x
    rw [hψd]
    dsimp only
    split_ifs <;> simp
  have hi : Integrable (fun x => ‖ψ x‖ ^ 2) (Measure.pi fun _ : Fin 1 => area) := by
    refine Integrable.of_bound (hψ.norm.pow_const 2).aestronglyMeasurable 1 (Filter.Eventually.of_forall fun x => ?_)
    rw [hn]
    split_ifs <;> simp
  have hpi := Real.pi_pos
  -- the box of the lower cap has area
  have hbox : area (Set.Ioo (3 * Real.pi / 4) Real.pi ×ˢ Set.Ioo (-Real.pi) Real.pi) ≠ 0 := by
    have msin : Measurable fun q : ℝ × ℝ => ENNReal.ofReal (Real.sin q.1) := (Real.measurable_sin.comp measurable_fst).ennreal_ofReal
    unfold area
    rw [Ne, withDensity_apply_eq_zero msin]
    intro h0
    have hsub : Set.Ioo (3 * Real.pi / 4) Real.pi ×ˢ Set.Ioo (-Real.pi) Real.pi ⊆ {q : ℝ × ℝ | ENNReal.ofReal (Real.sin q.1) ≠ 0} ∩
        (Set.Ioo (3 * Real.pi / 4) Real.pi ×ˢ Set.Ioo (-Real.pi) Real.pi) := by
      rintro q hq
      refine ⟨?_, hq⟩
      exact (ENNReal.ofReal_pos.mpr (Real.sin_pos_of_pos_of_lt_pi (by linarith [hq.1.1]) hq.1.2)).ne'
    have h1 := measure_mono_null hsub h0
    have hin : Set.Ioo (3 * Real.pi / 4) Real.pi ×ˢ Set.Ioo (-Real.pi) Real.pi ∩ Set.Ioo 0 Real.pi ×ˢ Set.Ioo (-Real.pi) Real.pi =
        Set.Ioo (3 * Real.pi / 4) Real.pi ×ˢ Set.Ioo (-Real.pi) Real.pi := by
      refine Set.inter_eq_left.mpr ?_
      rintro q ⟨⟨a1, a2⟩, a3⟩
      exact ⟨⟨by linarith, a2⟩, a3⟩
    rw [Measure.restrict_apply (measurableSet_Ioo.prod measurableSet_Ioo), hin,
      Measure.volume_eq_prod, Measure.prod_prod, Real.volume_Ioo, Real.volume_Ioo] at h1
    rcases mul_eq_zero.mp h1 with h | h
    · exact absurd h (ENNReal.ofReal_pos.mpr (by linarith)).ne'
    · exact absurd h (ENNReal.ofReal_pos.mpr (by linarith)).ne'
  have hincl : Set.univ.pi (fun _ : Fin 1 => Set.Ioo (3 * Real.pi / 4) Real.pi ×ˢ Set.Ioo (-Real.pi) Real.pi) ⊆ {x | ‖ψ x‖ ^ 2 ≠ 0} ∩ R := by
    intro x hx
    obtain ⟨⟨h1, h2⟩, -⟩ := hx 0 trivial
    have hc : Real.cos (x 0).1 < -(Real.sqrt 2 / 2) := by
      have h3 : Real.cos (3 * Real.pi / 4) = -(Real.sqrt 2 / 2) := by
        rw [← Real.cos_pi_div_four, ← Real.cos_pi_sub]
        congr 1
        ring
      rw [← h3]
      exact Real.cos_lt_cos_of_nonneg_of_le_pi (by linarith) h2.le h1
    have hs : 0 < Real.sqrt 2 := by positivity
    have hsq : Real.sqrt 2 ^ 2 = 2 := Real.sq_sqrt (by norm_num)
    refine ⟨?_, show Real.cos (x 0).1 < 0 by linarith⟩
    show ‖ψ x‖ ^ 2 ≠ 0
    rw [hn, if_pos (by nlinarith)]
    exact one_ne_zero
  have hcap : (Measure.pi fun _ : Fin 1 => area) ({x | ‖ψ x‖ ^ 2 ≠ 0} ∩ R) ≠ 0 := by
    intro h
    have h1 := measure_mono_null hincl h
    rw [Measure.pi_pi, Finset.prod_eq_zero_iff] at h1
    obtain ⟨i, -, h2⟩ := h1
    exact hbox h2
  have hZ : 0 < ∫ y, ‖ψ y‖ ^ 2 ∂(Measure.pi fun _ : Fin 1 => area) := by
    rw [integral_pos_iff_support_of_nonneg (fun x => by positivity) hi]
    exact lt_of_lt_of_le (pos_iff_ne_zero.mpr hcap) (measure_mono Set.inter_subset_left)
  have hp := walkerLaw_probability hi hZ
  have hπR : 0 < π.real R := by
    refine ENNReal.toReal_pos ?_ (measure_ne_top _ _)
    have hden : Measurable fun x => ENNReal.ofReal (‖ψ x‖ ^ 2 / ∫ y, ‖ψ y‖ ^ 2 ∂(Measure.pi fun _ : Fin 1 => area)) := ((hψ.norm.pow_const 2).div_const _).ennreal_ofReal
    rw [hπ]
    unfold walkerLaw
    rw [Ne, withDensity_apply_eq_zero hden]
    intro h
    refine hcap (measure_mono_null ?_ h)
    rintro x ⟨h1, h2⟩
    refine ⟨?_, h2⟩
    have h1' : ‖ψ x‖ ^ 2 ≠ 0 := h1
    exact (ENNReal.ofReal_pos.mpr (div_pos (lt_of_le_of_ne (by positivity) h1'.symm) hZ)).ne'
  obtain ⟨M, hM⟩ := hB (fun _ => (0, 0)) (π.real R / 2) (by linarith)
  have hst : Steady ⟨1, σ, M + 1, 1 / 2, 55 / 100⟩ (init ⟨1, σ, M + 1, 1 / 2, 55 / 100⟩) M := by
    left
    intro k h1 h2
    show (0 + k) % (M + 1) ≠ 0
    rw [Nat.zero_add, Nat.mod_eq_of_lt (by omega)]
    omega
  obtain ⟨Ω, Key, _, P, _, g, keys, S⟩ := c137_exists (V := Fin 1 → ℝ × ℝ) (Measure.pi fun _ : Fin 1 => drawLaw) ⟨1, σ, M + 1, 1 / 2, 55 / 100⟩
    (init ⟨1, σ, M + 1, 1 / 2, 55 / 100⟩) 1 1 M hst (fun _ _ _ => (0, 0))
  have h1 := (hM Ω Key _ P inferInstance 1 1 _ g keys _ _ M S M le_rfl (by simp) 0 0 (Filter.Eventually.of_forall fun ω => rfl)).1 R mR
  have hempty : {ω | walkers ⟨1, σ, M + 1, 1 / 2, 55 / 100⟩ g sphereMoveAll ψ keys (fun _ _ _ _ _ => (0, 0)) (init ⟨1, σ, M + 1, 1 / 2, 55 / 100⟩) ω M 0 () 0 ∈ R} = ∅ := by
    rw [Set.eq_empty_iff_forall_notMem]
    intro ω hω
    have hu : ∀ k i ω, g.uniform k i ω ∈ Set.Ico (0 : ℝ) 1 := fun k i ω => (S.draws i).range k ω
    have hmem : walkers ⟨1, σ, M + 1, 1 / 2, 55 / 100⟩ g sphereMoveAll ψ keys (fun _ _ _ _ _ => (0, 0)) (init ⟨1, σ, M + 1, 1 / 2, 55 / 100⟩) ω M 0 () 0 ∈ R := hω
    rw [walkers_chain _ g hu _ ψ keys _ _ M S.steady _ 0 0 M le_rfl] at hmem
    have hinv : ∀ (ks : List (Key × Key)) (x : Fin 1 → ℝ × ℝ), 0 < Real.cos (x 0).1 ∧ 1 / 2 < Real.cos (x 0).1 ^ 2 →
        0 < Real.cos ((chain (fun y => ‖ψ y‖ ^ 2) (sphereMoveAll (init ⟨1, σ, M + 1, 1 / 2, 55 / 100⟩).stddev) (fun k => (g.noise k 0 ω, g.uniform k 0 ω)) x ks) 0).1 := by
      intro ks
      induction ks with
      | nil => exact fun x hx => hx.1
      | cons k ks ih =>
        intro x hx
        unfold chain at ih ⊢
        rw [List.foldl_cons]
        apply ih
        unfold wstep
        split_ifs with ha
        · dsimp only at ha
          rw [hn, hn, if_pos hx.2, mul_one] at ha
          have hc : 1 / 2 < Real.cos ((sphereMoveAll (init ⟨1, σ, M + 1, 1 / 2, 55 / 100⟩).stddev (g.noise k.1 0 ω) x) 0).1 ^ 2 := by
            by_contra hcon
            rw [if_neg hcon] at ha
            exact absurd (hu k.2 0 ω).1 (not_le.mpr ha)
          exact ⟨same_cap _ _ _ hx.1 hx.2 hc, hc⟩
        · exact hx
    have hfin := hinv (pairs g.split3 (fun t => keys t 0) 1 M) (fun _ => (0, 0)) (by norm_num)
    exact absurd hmem (not_lt.mpr hfin.le)
  rw [hempty, measureReal_empty, zero_sub, abs_neg, abs_of_pos hπR] at h1
  linarith

/-- **C138.** The condition on the width is needed: with width zero a walker of a molecule never leaves its start. -/
theorem c138_zero {m : ℕ} (ψ : (Fin m → ℝ) → ℂ) {P : Measure Ω} {cfg : Cfg} {g : RandomRng Ω Key (Fin m → ℝ) n} {keys : ℕ → Fin d → Key}
    {x₀ : Ω → Fin d → Batch Unit n (Fin m → ℝ)} {s : State} {T : ℕ} (S : Run P (Measure.pi fun _ : Fin m => gaussianReal 0 1) 0 cfg g keys x₀ s T) (k : ℕ) (hk : k ≤ T)
    (a : Fin d) (i : Fin n) (ω : Ω) : walkers cfg g gaussianMove ψ keys x₀ s ω k a () i = x₀ ω a () i := by
  have hu : ∀ k i ω, g.uniform k i ω ∈ Set.Ico (0 : ℝ) 1 := fun k i ω => (S.draws i).range k ω
  rw [walkers_chain cfg g hu _ ψ keys x₀ s T S.steady _ a i k hk, S.width]
  have hmove : ∀ z : Fin m → ℝ, gaussianMove 0 z (x₀ ω a () i) = x₀ ω a () i := by
    intro z
    funext j
    simp [gaussianMove]
  generalize pairs g.split3 (fun t => keys t a) cfg.steps k = ks
  induction ks with
  | nil => rfl
  | cons q ks ih =>
    have : ∀ z u, wstep (fun y => ‖ψ y‖ ^ 2) (gaussianMove 0) (x₀ ω a () i) z u = x₀ ω a () i := by
      intro z u
      unfold wstep
      rw [hmove]
      simp
    unfold chain at ih ⊢
    rw [List.foldl_cons, this]
    exact ih

/-- Two electrons with a Gaussian wavefunction, every walker of three devices placed 100 away from where it belongs, width 1/10: a burn-in length exists after which
the chance to find both electrons on the same side is what the wavefunction says, up to a thousandth, in a run that exists. -/
example : ∃ T : ℕ, ∃ (Ω Key : Type) (_ : MeasurableSpace Ω) (P : Measure Ω) (_ : IsProbabilityMeasure P) (g : RandomRng Ω Key (Fin 6 → ℝ) 5) (keys : ℕ → Fin 3 → Key), ∀ a i,
    |P.real {ω | 0 < walkers ⟨10, 1 / 10, T + 1, 1 / 2, 55 / 100⟩ g gaussianMove (fun x => Complex.ofReal (Real.exp (-∑ j, x j ^ 2))) keys
        (fun _ _ _ _ _ => 100) (init ⟨10, 1 / 10, T + 1, 1 / 2, 55 / 100⟩) ω T a () i 0 * walkers ⟨10, 1 / 10, T + 1, 1 / 2, 55 / 100⟩ g gaussianMove
          (fun x => Complex.ofReal (Real.exp (-∑ j, x j ^ 2))) keys (fun _ _ _ _ _ => 100) (init ⟨10, 1 / 10, T + 1, 1 / 2, 55 / 100⟩) ω T a () i 3} -
      (walkerLaw volume (fun x : Fin 6 → ℝ => Complex.ofReal (Real.exp (-∑ j, x j ^ 2)))).real {x | 0 < x 0 * x 3}| ≤ 1 / 1000 := by
  have hψ : Measurable fun x : Fin 6 → ℝ => Complex.ofReal (Real.exp (-∑ j, x j ^ 2)) := by fun_prop
  have e : (fun x : Fin 6 → ℝ => ‖Complex.ofReal (Real.exp (-∑ j, x j ^ 2))‖ ^ 2) = fun x => Real.exp (∑ j, -2 * x j ^ 2) := by
    funext x
    rw [Complex.norm_real, Real.norm_eq_abs, Real.abs_exp, ← Real.exp_nat_mul, ← Finset.mul_sum]
    congr 1
    push_cast
    ring
  have hi : Integrable fun x : Fin 6 → ℝ => Real.exp (∑ j, -2 * x j ^ 2) := by
    simp_rw [Real.exp_sum]
    exact Integrable.fintype_prod (f := fun _ x => Real.exp (-2 * x ^ 2)) fun _ => integrable_exp_neg_mul_sq (by norm_num)
  obtain ⟨h, -, -⟩ := c138_molecule (σ := 1 / 10) hψ (by rw [e]; exact hi) (by rw [e]; exact integral_exp_pos hi) (by norm_num)
  obtain ⟨M, hM⟩ := h (fun _ => 100) (1 / 1000) (by norm_num)
  have hst : Steady ⟨10, 1 / 10, M + 1, 1 / 2, 55 / 100⟩ (init ⟨10, 1 / 10, M + 1, 1 / 2, 55 / 100⟩) M := by
    left
    intro k h1 h2
    show (0 + k) % (M + 1) ≠ 0
    rw [Nat.zero_add, Nat.mod_eq_of_lt (by omega)]
    omega
  obtain ⟨Ω, Key, _, P, _, g, keys, S⟩ := c137_exists (V := Fin 6 → ℝ) (Measure.pi fun _ : Fin 6 => gaussianReal 0 1) ⟨10, 1 / 10, M + 1, 1 / 2, 55 / 100⟩
    (init ⟨10, 1 / 10, M + 1, 1 / 2, 55 / 100⟩) 3 5 M hst (fun _ _ _ => 100)
  refine ⟨M, Ω, Key, _, P, inferInstance, g, keys, fun a i => ?_⟩
  have hm : MeasurableSet {x : Fin 6 → ℝ | 0 < x 0 * x 3} := measurableSet_lt measurable_const (by fun_prop)
  have := (hM Ω Key _ P inferInstance 5 3 _ g keys _ _ M S M le_rfl (by simp; omega) a i (Filter.Eventually.of_forall fun ω => rfl)).1 _ hm
  exact this

end Jaqmc.Average.Props
