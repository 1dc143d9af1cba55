import Verif.Lemmas.MetropolisErgodic
/-!
A law of large numbers for the walkers (C139): sums of readings along a chain of updates.
-/
namespace Jaqmc.Average.Ergodic
open MeasureTheory ProbabilityTheory Jaqmc.Average Filter
open scoped ENNReal Topology

variable {V Q : Type} [MeasurableSpace V] [MeasurableSpace Q]

/-! ### Moments of a sum of readings -/

/-- The average of the sum of `T` readings of `h`, `q` updates apart. -/
noncomputable def mean (κ : Measure Q) (w : V → Q → V) (q : ℕ) (h : V → ℝ) : ℕ → V → ℝ
  | 0 => fun _ => 0
  | T + 1 => (U κ w)^[q] fun y => h y + mean κ w q h T y

/-- The average of its square. -/
noncomputable def second (κ : Measure Q) (w : V → Q → V) (q : ℕ) (h : V → ℝ) : ℕ → V → ℝ
  | 0 => fun _ => 0
  | T + 1 => (U κ w)^[q] fun y => h y ^ 2 + 2 * (h y * mean κ w q h T y) + second κ w q h T y

variable {κ : Measure Q} [IsProbabilityMeasure κ] {w : V → Q → V} {π : Measure V} [IsProbabilityMeasure π]

theorem Bdd.add {g h : V → ℝ} {A B : ℝ} (hg : Bdd g A) (hh : Bdd h B) : Bdd (fun x => g x + h x) (A + B) :=
  ⟨hg.meas.add hh.meas, fun x => (abs_add_le _ _).trans (add_le_add (hg.le x) (hh.le x))⟩

theorem mean_bdd (R : Rev κ w π) (q : ℕ) {h : V → ℝ} {B : ℝ} (hh : Bdd h B) (T : ℕ) : ∃ C, Bdd (mean κ w q h T) C := by
  induction T with
  | zero => exact ⟨_, Bdd.const 0⟩
  | succ T ih =>
    obtain ⟨C, hC⟩ := ih
    exact ⟨_, (hh.add hC).iter R q⟩

theorem second_bdd (R : Rev κ w π) (q : ℕ) {h : V → ℝ} {B : ℝ} (hh : Bdd h B) (T : ℕ) : ∃ C, Bdd (second κ w q h T) C := by
  induction T with
  | zero => exact ⟨_, Bdd.const 0⟩
  | succ T ih =>
    obtain ⟨C, hC⟩ := ih
    obtain ⟨D, hD⟩ := mean_bdd R q hh T
    exact ⟨_, ((hh.pow.add ((Bdd.const 2).mul (hh.mul hD))).add hC).iter R q⟩

theorem mean_corr (R : Rev κ w π) (q : ℕ) {h : V → ℝ} {B : ℝ} (hh : Bdd h B) (T : ℕ) {d : V → ℝ} {A : ℝ} (hd : Bdd d A) :
    ∫ x, d x * mean κ w q h T x ∂π = ∑ t ∈ Finset.range T, ∫ x, d x * (U κ w)^[(t + 1) * q] h x ∂π := by
  induction T generalizing d A with
  | zero => simp [mean]
  | succ T ih =>
    obtain ⟨C, hC⟩ := mean_bdd R q hh T
    have h1 : ∫ x, d x * mean κ w q h (T + 1) x ∂π = ∫ x, (U κ w)^[q] d x * (h x + mean κ w q h T x) ∂π := iter_symm R hd (hh.add hC) q
    rw [h1]
    simp_rw [mul_add]
    rw [integral_add (((hd.iter R q).mul hh).int π) (((hd.iter R q).mul hC).int π), ih (hd.iter R q), ← iter_symm R hd hh q, Finset.sum_range_succ', add_comm]
    congr 1
    · refine Finset.sum_congr rfl fun t _ => ?_
      rw [← iter_symm R hd (hh.iter R _) q, ← Function.iterate_add_apply]
      congr 3
      ring_nf
    · simp

theorem readings_small {N q T : ℕ} (hq : 0 < q) {c : ℕ → ℝ} {η C : ℝ} (h0 : 0 ≤ η) (h1 : ∀ n, c n ≤ C) (hC : 0 ≤ C) (h2 : ∀ n ≥ N, c n ≤ η) :
    ∑ t ∈ Finset.range T, c ((t + 1) * q) ≤ T * η + N * C := by
  have h3 : ∀ t ∈ Finset.range T, c ((t + 1) * q) ≤ η + (if t < N then C else 0) := by
    intro t _
    split_ifs with h
    · linarith [h1 ((t + 1) * q)]
    · have : N ≤ (t + 1) * q := by nlinarith
      linarith [h2 _ this]
  refine (Finset.sum_le_sum h3).trans ?_
  rw [Finset.sum_add_distrib, Finset.sum_const, Finset.card_range, nsmul_eq_mul, ← Finset.sum_filter, Finset.sum_const, nsmul_eq_mul]
  have hc : ((Finset.range T).filter fun t => t < N).card ≤ N := by
    have : ((Finset.range T).filter fun t => t < N) ⊆ Finset.range N := fun t ht => by
      simp only [Finset.mem_filter, Finset.mem_range] at ht ⊢
      exact ht.2
    simpa using Finset.card_le_card this
  have hc' : (((Finset.range T).filter fun t => t < N).card : ℝ) ≤ N := by exact_mod_cast hc
  have := mul_le_mul_of_nonneg_right hc' hC
  linarith

/-- The mean square of the sum of `T` readings of a quantity with average zero grows slower than the square of `T`. -/
theorem second_small (R : Rev κ w π) (hr : Reach κ w π) {h : V → ℝ} (hh : ∃ B, Bdd h B) (hz : ∫ x, h x ∂π = 0) {ε : ℝ} (hε : 0 < ε) :
    ∃ T₀ : ℕ, ∀ q, 0 < q → ∀ T ≥ T₀, ∫ x, second κ w q h T x ∂π ≤ ε * T ^ 2 := by
  obtain ⟨B', hB'⟩ := hh
  set B := |B'| + 1 with hBd
  have hB0 : 0 < B := by positivity
  have hB : Bdd h B := ⟨hB'.meas, fun x => (hB'.le x).trans ((le_abs_self _).trans (by linarith))⟩
  have hn1 : Bdd (fun x => h x / B) 1 := ⟨hB.meas.div_const _, fun x => by
    rw [abs_div, abs_of_pos hB0, div_le_one hB0]
    exact hB.le x⟩
  obtain ⟨N, hN⟩ := from_bounded R hr hB (ε := ε / (2 * B)) (by positivity)
  set c : ℕ → ℝ := fun n => ∫ x, h x * (U κ w)^[n] h x ∂π with hc
  have hcN : ∀ n ≥ N, c n ≤ ε / 2 := by
    intro n hn
    have h1 := hN n hn _ hn1
    rw [hz, zero_mul, sub_zero] at h1
    have e : ∀ n, (U κ w)^[n] (fun x => h x / B) = fun x => (U κ w)^[n] h x / B := by
      intro n
      induction n with
      | zero => rfl
      | succ n ih =>
        rw [Function.iterate_succ_apply', Function.iterate_succ_apply', ih]
        funext x
        exact integral_div _ _
    rw [e n] at h1
    simp_rw [← mul_div_assoc] at h1
    rw [integral_div, abs_div, abs_of_pos hB0, div_le_iff₀ hB0] at h1
    have h2 : ε / (2 * B) * B = ε / 2 := by field_simp
    rw [h2] at h1
    exact (le_abs_self _).trans h1
  have hcB : ∀ n, c n ≤ B * B := by
    intro n
    have hb := hB.mul (hB.iter R n)
    have := average_between π hb.meas fun x => abs_le.mp (hb.le x)
    exact this.2
  have hrec : ∀ q, 0 < q → ∀ T : ℕ, ∫ x, second κ w q h T x ∂π ≤ T * (B * B * (1 + 2 * N)) + ε / 2 * T ^ 2 := by
    intro q hq T
    induction T with
    | zero => simp [second]
    | succ T ih =>
      obtain ⟨C, hC⟩ := mean_bdd R q hB T
      obtain ⟨D, hD⟩ := second_bdd R q hB T
      have b1 := (Bdd.const (V := V) 2).mul (hB.mul hC)
      have h1 : ∫ x, second κ w q h (T + 1) x ∂π = ∫ x, (h x ^ 2 + 2 * (h x * mean κ w q h T x) + second κ w q h T x) ∂π :=
        iter_mean R ((hB.pow.add b1).add hD) q
      rw [h1, integral_add ((hB.pow.add b1).int π) (hD.int π), integral_add (hB.pow.int π) (b1.int π), integral_const_mul, mean_corr R q hB T hB]
      have h2 := readings_small (T := T) hq (by positivity) hcB (by positivity) hcN
      have h3 : ∫ x, h x ^ 2 ∂π ≤ B * B := by
        have := average_between π hB.pow.meas fun x => abs_le.mp (hB.pow.le x)
        exact this.2
      simp only [hc] at h2
      push_cast
      nlinarith
  obtain ⟨T₀, hT₀⟩ := exists_nat_ge (B * B * (1 + 2 * N) * 2 / ε)
  refine ⟨T₀, fun q hq T hT => (hrec q hq T).trans ?_⟩
  have hT' : (T₀ : ℝ) ≤ T := by exact_mod_cast hT
  rw [div_le_iff₀ hε] at hT₀
  have : B * B * (1 + 2 * N) ≤ ε / 2 * T := by nlinarith
  have hTn : (0 : ℝ) ≤ T := Nat.cast_nonneg _
  nlinarith [mul_le_mul_of_nonneg_left this hTn]

/-! ### Readings far from the ordinary -/

theorem iter_to_zero (R : Rev κ w π) {f : ℕ → V → ℝ} (hf : ∀ r, Bdd (f r) 1) (h0 : ∀ x, Tendsto (fun r => f r x) atTop (𝓝 0)) (n : ℕ) (x : V) :
    Tendsto (fun r => (U κ w)^[n] (f r) x) atTop (𝓝 0) := by
  induction n generalizing x with
  | zero => exact h0 x
  | succ n ih =>
    simp_rw [Function.iterate_succ_apply']
    have hb : ∀ r, Bdd (fun q => (U κ w)^[n] (f r) (w x q)) 1 := fun r => ((hf r).iter R n).step R x
    have := tendsto_integral_of_dominated_convergence (μ := κ) (F := fun r q => (U κ w)^[n] (f r) (w x q)) (f := fun _ => 0) (fun _ => 1)
      (fun r => (hb r).meas.aestronglyMeasurable) (integrable_const _) (fun r => Filter.Eventually.of_forall fun q => (hb r).le q)
      (Filter.Eventually.of_forall fun q => ih (w x q))
    simpa [U] using this

/-- Whether the size of `g` reaches `r`. -/
noncomputable def far (g : V → ℝ) (r : ℝ) : V → ℝ := Set.indicator {x | r ≤ |g x|} fun _ => 1

theorem far_bdd {g : V → ℝ} (hg : Measurable g) (r : ℝ) : Bdd (far g r) 1 := by
  have hs : MeasurableSet {x | r ≤ |g x|} := measurableSet_le measurable_const (continuous_abs.measurable.comp hg)
  refine ⟨measurable_const.indicator hs, fun x => ?_⟩
  unfold far
  by_cases hx : x ∈ {x | r ≤ |g x|} <;> simp [Set.indicator, hx]

omit [MeasurableSpace V] in
theorem far_anti (g : V → ℝ) {r s : ℝ} (h : r ≤ s) (x : V) : far g s x ≤ far g r x := by
  unfold far
  exact Set.indicator_le_indicator_of_subset (fun y (hy : s ≤ |g y|) => h.trans hy) (fun _ => zero_le_one) x

omit [MeasurableSpace V] in
theorem far_to_zero (g : V → ℝ) (x : V) : Tendsto (fun r : ℕ => far g r x) atTop (𝓝 0) := by
  obtain ⟨N, hN⟩ := exists_nat_gt |g x|
  refine tendsto_const_nhds.congr' ?_
  filter_upwards [eventually_ge_atTop N] with r hr
  have : x ∉ {x | (r : ℝ) ≤ |g x|} := by
    have h1 : (N : ℝ) ≤ r := by exact_mod_cast hr
    have h2 : ¬ ((r : ℝ) ≤ |g x|) := by linarith
    exact h2
  unfold far
  rw [Set.indicator_of_notMem this]

theorem iter_mono (R : Rev κ w π) {f g : V → ℝ} {A B : ℝ} (hf : Bdd f A) (hg : Bdd g B) (h : ∀ x, f x ≤ g x) (n : ℕ) (x : V) :
    (U κ w)^[n] f x ≤ (U κ w)^[n] g x := by
  induction n generalizing x with
  | zero => exact h x
  | succ n ih =>
    rw [Function.iterate_succ_apply', Function.iterate_succ_apply']
    exact integral_mono (((hf.iter R n).step R x).int κ) (((hg.iter R n).step R x).int κ) fun q => ih _

/-- Readings of any quantity are rarely far out, at any time. -/
theorem tight (R : Rev κ w π) {x : V} (hx : ∀ ε : ℝ, 0 < ε → ∃ N, ∀ n ≥ N, ∀ f : V → ℝ, Bdd f 1 → |(U κ w)^[n] f x - ∫ y, f y ∂π| ≤ ε)
    {g : V → ℝ} (hg : Measurable g) {ε : ℝ} (hε : 0 < ε) : ∃ r₀ : ℝ, ∀ r ≥ r₀, ∀ n, (U κ w)^[n] (far g r) x ≤ ε := by
  obtain ⟨N, hN⟩ := hx (ε / 2) (by positivity)
  have hlim : Tendsto (fun r : ℕ => ∫ y, far g r y ∂π) atTop (𝓝 0) := by
    have := tendsto_integral_of_dominated_convergence (μ := π) (F := fun (r : ℕ) y => far g r y) (f := fun _ => 0) (fun _ => 1)
      (fun r => (far_bdd hg r).meas.aestronglyMeasurable) (integrable_const _) (fun r => Filter.Eventually.of_forall fun q => (far_bdd hg r).le q)
      (Filter.Eventually.of_forall fun y => far_to_zero g y)
    simpa using this
  have h1 : ∀ᶠ r : ℕ in atTop, ∫ y, far g r y ∂π < ε / 2 := hlim.eventually (gt_mem_nhds (by positivity))
  have h2 : ∀ n, ∀ᶠ r : ℕ in atTop, (U κ w)^[n] (far g r) x < ε := fun n =>
    (iter_to_zero R (fun r : ℕ => far_bdd hg r) (fun y => far_to_zero g y) n x).eventually (gt_mem_nhds hε)
  have h3 : ∀ᶠ r : ℕ in atTop, ∀ n ∈ Finset.range N, (U κ w)^[n] (far g r) x < ε := (eventually_all_finset _).mpr fun n _ => h2 n
  obtain ⟨r₀, ha, hb⟩ := (h1.and h3).exists
  refine ⟨r₀, fun r hr n => (iter_mono R (far_bdd hg r) (far_bdd hg r₀) (far_anti g hr) n x).trans ?_⟩
  by_cases hn : n < N
  · exact (hb n (Finset.mem_range.mpr hn)).le
  · have := (abs_le.mp (hN n (not_lt.mp hn) _ (far_bdd hg r₀))).2
    linarith

end Jaqmc.Average.Ergodic
