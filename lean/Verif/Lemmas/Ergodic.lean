import Verif.Lemmas.Mixing
import Mathlib.MeasureTheory.Function.L2Space
import Mathlib.MeasureTheory.Function.ConvergenceInMeasure
import Mathlib.MeasureTheory.Measure.Decomposition.IntegralRNDeriv
/-!
Reversible updates that can go everywhere in two steps converge (C138): no rate, but no bound on the space or the wavefunction either.
-/
namespace Jaqmc.Average.Ergodic
open MeasureTheory ProbabilityTheory Jaqmc.Average Filter
open scoped ENNReal Topology

variable {V Q : Type} [MeasurableSpace V] [MeasurableSpace Q]

/-- The average of `h` after one update. -/
noncomputable def U (κ : Measure Q) (w : V → Q → V) (h : V → ℝ) : V → ℝ := fun x => ∫ q, h (w x q) ∂κ

/-- Measurable and bounded by `B`. -/
structure Bdd (h : V → ℝ) (B : ℝ) : Prop where
  meas : Measurable h
  le : ∀ x, |h x| ≤ B

theorem Bdd.int {h : V → ℝ} {B : ℝ} (hh : Bdd h B) (π : Measure V) [IsFiniteMeasure π] : Integrable h π :=
  bounded_integrable π hh.meas fun x => abs_le.mp (hh.le x)

theorem Bdd.mul {g h : V → ℝ} {A B : ℝ} (hg : Bdd g A) (hh : Bdd h B) : Bdd (fun x => g x * h x) (A * B) :=
  ⟨hg.meas.mul hh.meas, fun x => by
    rw [abs_mul]
    exact mul_le_mul (hg.le x) (hh.le x) (abs_nonneg _) ((abs_nonneg _).trans (hg.le x))⟩

theorem Bdd.sub {g h : V → ℝ} {A B : ℝ} (hg : Bdd g A) (hh : Bdd h B) : Bdd (fun x => g x - h x) (A + B) :=
  ⟨hg.meas.sub hh.meas, fun x => (abs_sub _ _).trans (add_le_add (hg.le x) (hh.le x))⟩

theorem Bdd.const (c : ℝ) : Bdd (fun _ : V => c) |c| := ⟨measurable_const, fun _ => le_rfl⟩

theorem Bdd.pow {h : V → ℝ} {B : ℝ} (hh : Bdd h B) : Bdd (fun x => h x ^ 2) (B * B) := by
  have := hh.mul hh
  simpa only [sq] using this

/-- The distribution, the update, and its symmetry. -/
structure Rev (κ : Measure Q) (w : V → Q → V) (π : Measure V) : Prop where
  meas : Measurable fun p : V × Q => w p.1 p.2
  rev : ∀ F : V × V → ℝ≥0∞, Measurable F → ∫⁻ p, F (p.1, w p.1 p.2) ∂(π.prod κ) = ∫⁻ p, F (w p.1 p.2, p.1) ∂(π.prod κ)

variable {κ : Measure Q} [IsProbabilityMeasure κ] {w : V → Q → V} {π : Measure V} [IsProbabilityMeasure π]

theorem Rev.real (R : Rev κ w π) (F : V × V → ℝ) (hF : Measurable F) :
    ∫ p, F (p.1, w p.1 p.2) ∂(π.prod κ) = ∫ p, F (w p.1 p.2, p.1) ∂(π.prod κ) := by
  have m1 : Measurable fun p : V × Q => (p.1, w p.1 p.2) := measurable_fst.prodMk R.meas
  have m2 : Measurable fun p : V × Q => (w p.1 p.2, p.1) := R.meas.prodMk measurable_fst
  have e : (π.prod κ).map (fun p => (p.1, w p.1 p.2)) = (π.prod κ).map fun p => (w p.1 p.2, p.1) := by
    refine Measure.ext_of_lintegral _ fun f hf => ?_
    rw [lintegral_map hf m1, lintegral_map hf m2, R.rev f hf]
  rw [← integral_map m1.aemeasurable hF.aestronglyMeasurable, ← integral_map m2.aemeasurable hF.aestronglyMeasurable, e]

theorem Bdd.step (R : Rev κ w π) {h : V → ℝ} {B : ℝ} (hh : Bdd h B) (x : V) : Bdd (fun q => h (w x q)) B :=
  ⟨hh.meas.comp (R.meas.comp measurable_prodMk_left), fun q => hh.le _⟩

theorem Bdd.U (R : Rev κ w π) {h : V → ℝ} {B : ℝ} (hh : Bdd h B) : Bdd (U κ w h) B := by
  refine ⟨?_, fun x => ?_⟩
  · have : Measurable fun p : V × Q => h (w p.1 p.2) := hh.meas.comp R.meas
    exact this.stronglyMeasurable.integral_prod_right'.measurable
  · have := average_between κ (hh.step R x).meas fun q => abs_le.mp ((hh.step R x).le q)
    exact abs_le.mpr this

theorem Bdd.iter (R : Rev κ w π) {h : V → ℝ} {B : ℝ} (hh : Bdd h B) (n : ℕ) : Bdd ((Ergodic.U κ w)^[n] h) B := by
  induction n with
  | zero => exact hh
  | succ n ih =>
    rw [Function.iterate_succ_apply']
    exact ih.U R

/-- The update is symmetric. -/
theorem U_symm (R : Rev κ w π) {g h : V → ℝ} {A B : ℝ} (hg : Bdd g A) (hh : Bdd h B) : ∫ x, g x * U κ w h x ∂π = ∫ x, U κ w g x * h x ∂π := by
  have m1 : Bdd (fun p : V × Q => g p.1 * h (w p.1 p.2)) (A * B) := Bdd.mul ⟨hg.meas.comp measurable_fst, fun p => hg.le _⟩ ⟨hh.meas.comp R.meas, fun p => hh.le _⟩
  have m2 : Bdd (fun p : V × Q => g (w p.1 p.2) * h p.1) (A * B) := Bdd.mul ⟨hg.meas.comp R.meas, fun p => hg.le _⟩ ⟨hh.meas.comp measurable_fst, fun p => hh.le _⟩
  have e := R.real (fun p => g p.1 * h p.2) ((hg.meas.comp measurable_fst).mul (hh.meas.comp measurable_snd))
  simp only at e
  rw [integral_prod _ (m1.int _), integral_prod _ (m2.int _)] at e
  simp_rw [integral_const_mul, integral_mul_const] at e
  exact e

theorem U_const (R : Rev κ w π) (c : ℝ) : U κ w (fun _ : V => c) = fun _ => c := by
  funext x
  unfold U
  simp

theorem U_kept (R : Rev κ w π) {h : V → ℝ} {B : ℝ} (hh : Bdd h B) : ∫ x, U κ w h x ∂π = ∫ x, h x ∂π := by
  have := U_symm R (Bdd.const 1) hh
  rw [U_const R] at this
  simpa using this

theorem quad {X : Type} [MeasurableSpace X] (κ : Measure X) [IsProbabilityMeasure κ] {h : X → ℝ} {B : ℝ} (hh : Bdd h B) (c : ℝ) :
    ∫ q, (h q - c) ^ 2 ∂κ = ∫ q, h q ^ 2 ∂κ - 2 * c * ∫ q, h q ∂κ + c ^ 2 := by
  have e : ∀ q, (h q - c) ^ 2 = h q ^ 2 - (2 * c * h q - c ^ 2) := fun q => by ring
  have i2 : Integrable (fun q => 2 * c * h q) κ := (hh.int κ).const_mul _
  have i1 : Integrable (fun q => 2 * c * h q - c ^ 2) κ := i2.sub (integrable_const _)
  simp_rw [e]
  rw [integral_sub (hh.pow.int κ) i1, integral_sub i2 (integrable_const _), integral_const_mul]
  simp
  ring

/-- The square of an average is at most the average of the square. -/
theorem sq_mean {X : Type} [MeasurableSpace X] (κ : Measure X) [IsProbabilityMeasure κ] {h : X → ℝ} {B : ℝ} (hh : Bdd h B) : (∫ q, h q ∂κ) ^ 2 ≤ ∫ q, h q ^ 2 ∂κ := by
  have h1 : 0 ≤ ∫ q, (h q - ∫ q, h q ∂κ) ^ 2 ∂κ := integral_nonneg fun q => by positivity
  rw [quad κ hh] at h1
  linarith

theorem U_sq (R : Rev κ w π) {h : V → ℝ} {B : ℝ} (hh : Bdd h B) : ∫ x, U κ w h x ^ 2 ∂π ≤ ∫ x, h x ^ 2 ∂π := by
  rw [← U_kept R hh.pow]
  refine integral_mono ((hh.U R).pow.int π) ((hh.pow.U R).int π) fun x => ?_
  exact sq_mean κ (hh.step R x)

/-! ### Correlations -/

/-- The correlation of `h` with itself after `k` updates. -/
noncomputable def corr (κ : Measure Q) (w : V → Q → V) (π : Measure V) (h : V → ℝ) (k : ℕ) : ℝ := ∫ x, h x * (U κ w)^[k] h x ∂π

theorem iter_symm (R : Rev κ w π) {g h : V → ℝ} {A B : ℝ} (hg : Bdd g A) (hh : Bdd h B) (i : ℕ) :
    ∫ x, g x * (U κ w)^[i] h x ∂π = ∫ x, (U κ w)^[i] g x * h x ∂π := by
  induction i generalizing g with
  | zero => rfl
  | succ i ih =>
    rw [Function.iterate_succ_apply', U_symm R hg (hh.iter R i), ih (hg.U R), ← Function.iterate_succ_apply]

theorem corr_add (R : Rev κ w π) {h : V → ℝ} {B : ℝ} (hh : Bdd h B) (i j : ℕ) :
    ∫ x, (U κ w)^[i] h x * (U κ w)^[j] h x ∂π = corr κ w π h (i + j) := by
  rw [← iter_symm R hh (hh.iter R j) i, ← Function.iterate_add_apply]
  rfl

theorem corr_sq (R : Rev κ w π) {h : V → ℝ} {B : ℝ} (hh : Bdd h B) (n : ℕ) : ∫ x, (U κ w)^[n] h x ^ 2 ∂π = corr κ w π h (2 * n) := by
  simp_rw [sq]
  rw [corr_add R hh, two_mul]

theorem corr_anti (R : Rev κ w π) {h : V → ℝ} {B : ℝ} (hh : Bdd h B) : Antitone fun n => corr κ w π h (2 * n) := by
  refine antitone_nat_of_succ_le fun n => ?_
  rw [← corr_sq R hh, ← corr_sq R hh, Function.iterate_succ_apply']
  exact U_sq R (hh.iter R n)

theorem iter_mean (R : Rev κ w π) {h : V → ℝ} {B : ℝ} (hh : Bdd h B) (n : ℕ) : ∫ x, (U κ w)^[n] h x ∂π = ∫ x, h x ∂π := by
  induction n with
  | zero => rfl
  | succ n ih => rw [Function.iterate_succ_apply', U_kept R (hh.iter R n), ih]

/-- How far averages after `n` updates are from a constant. -/
theorem corr_var (R : Rev κ w π) {h : V → ℝ} {B : ℝ} (hh : Bdd h B) (n : ℕ) (c : ℝ) :
    ∫ x, ((U κ w)^[n] h x - c) ^ 2 ∂π = corr κ w π h (2 * n) - 2 * c * ∫ x, h x ∂π + c ^ 2 := by
  rw [quad π (hh.iter R n), corr_sq R hh, iter_mean R hh]

theorem corr_dist (R : Rev κ w π) {h : V → ℝ} {B : ℝ} (hh : Bdd h B) (n m : ℕ) :
    ∫ x, ((U κ w)^[2 * n] h x - (U κ w)^[2 * m] h x) ^ 2 ∂π = corr κ w π h (2 * (2 * n)) - 2 * corr κ w π h (2 * (n + m)) + corr κ w π h (2 * (2 * m)) := by
  have e : ∀ x, ((U κ w)^[2 * n] h x - (U κ w)^[2 * m] h x) ^ 2 =
      (U κ w)^[2 * n] h x ^ 2 - 2 * ((U κ w)^[2 * n] h x * (U κ w)^[2 * m] h x) + (U κ w)^[2 * m] h x ^ 2 := fun q => by ring
  simp_rw [e]
  have i1 := (hh.iter R (2 * n)).pow.int π
  have i2 := (((hh.iter R (2 * n)).mul (hh.iter R (2 * m))).int π).const_mul 2
  have i3 := (hh.iter R (2 * m)).pow.int π
  have i4 : Integrable (fun x => (U κ w)^[2 * n] h x ^ 2 - 2 * ((U κ w)^[2 * n] h x * (U κ w)^[2 * m] h x)) π := i1.sub i2
  rw [integral_add i4 i3, integral_sub i1 i2, integral_const_mul, corr_sq R hh, corr_sq R hh, corr_add R hh, mul_add]

/-! ### Convergence of averages -/

/-- Two updates lead, with some density, from everywhere to everywhere. -/
def Reach (κ : Measure Q) (w : V → Q → V) (π : Measure V) : Prop :=
  ∃ K : V × V → ℝ≥0∞, Measurable K ∧ (∀ᵐ p ∂(π.prod π), K p ≠ 0) ∧
    ∀ x, ∀ f : V → ℝ≥0∞, Measurable f → ∫⁻ y, K (x, y) * f y ∂π ≤ ∫⁻ q, ∫⁻ q', f (w (w x q) q') ∂κ ∂κ

theorem lint_U (R : Rev κ w π) {h : V → ℝ} {B : ℝ} (hh : Bdd h B) (h0 : ∀ x, 0 ≤ h x) (x : V) : ∫⁻ q, ENNReal.ofReal (h (w x q)) ∂κ = ENNReal.ofReal (U κ w h x) := by
  rw [← ofReal_integral_eq_lintegral_ofReal ((hh.step R x).int κ) (Eventually.of_forall fun q => h0 _)]
  rfl

theorem U_nonneg {h : V → ℝ} (h0 : ∀ x, 0 ≤ h x) (x : V) : 0 ≤ U κ w h x := integral_nonneg fun q => h0 _

theorem U_quad (R : Rev κ w π) {h : V → ℝ} {B : ℝ} (hh : Bdd h B) (c : ℝ) :
    U κ w (fun y => (h y - c) ^ 2) = fun x => U κ w (fun y => h y ^ 2) x - 2 * c * U κ w h x + c ^ 2 := by
  funext x
  exact quad κ (hh.step R x) c

theorem U_lin (R : Rev κ w π) {g h : V → ℝ} {A B : ℝ} (hg : Bdd g A) (hh : Bdd h B) (b c : ℝ) :
    U κ w (fun y => g y - b * h y + c) = fun x => U κ w g x - b * U κ w h x + c := by
  funext x
  unfold U
  have i1 : Integrable (fun q => g (w x q)) κ := (hg.step R x).int κ
  have i2 : Integrable (fun q => b * h (w x q)) κ := ((hh.step R x).int κ).const_mul b
  have i3 : Integrable (fun q => g (w x q) - b * h (w x q)) κ := i1.sub i2
  rw [integral_add i3 (integrable_const _), integral_sub i1 i2, integral_const_mul]
  simp

/-- Differences between the ends of two updates. -/
theorem dirichlet (R : Rev κ w π) {K : V × V → ℝ≥0∞} (hK : Measurable K)
    (hr : ∀ x, ∀ f : V → ℝ≥0∞, Measurable f → ∫⁻ y, K (x, y) * f y ∂π ≤ ∫⁻ q, ∫⁻ q', f (w (w x q) q') ∂κ ∂κ) {h : V → ℝ} {B : ℝ} (hh : Bdd h B) :
    ∫⁻ p, K p * ENNReal.ofReal ((h p.2 - h p.1) ^ 2) ∂(π.prod π) ≤ ENNReal.ofReal (2 * (∫ x, h x ^ 2 ∂π - ∫ x, h x * U κ w (U κ w h) x ∂π)) := by
  have mF : Measurable fun p : V × V => ENNReal.ofReal ((h p.2 - h p.1) ^ 2) :=
    (((hh.meas.comp measurable_snd).sub (hh.meas.comp measurable_fst)).pow_const 2).ennreal_ofReal
  have mKF : Measurable fun p : V × V => K p * ENNReal.ofReal ((h p.2 - h p.1) ^ 2) := hK.mul mF
  rw [lintegral_prod _ mKF.aemeasurable]
  have hb := hh.pow
  have step1 : ∀ x, ∫⁻ y, K (x, y) * ENNReal.ofReal ((h y - h x) ^ 2) ∂π ≤
      ENNReal.ofReal (U κ w (U κ w fun y => h y ^ 2) x - 2 * h x * U κ w (U κ w h) x + h x ^ 2) := by
    intro x
    have hd : Bdd (fun y => (h y - h x) ^ 2) ((B + |h x|) * (B + |h x|)) := (hh.sub (Bdd.const (h x))).pow
    refine (hr x _ hd.meas.ennreal_ofReal).trans (le_of_eq ?_)
    have e1 : ∀ q, ∫⁻ q', ENNReal.ofReal ((h (w (w x q) q') - h x) ^ 2) ∂κ = ENNReal.ofReal (U κ w (fun y => (h y - h x) ^ 2) (w x q)) := fun q =>
      lint_U R hd (fun y => by positivity) (w x q)
    simp_rw [e1]
    rw [lint_U R (hd.U R) (U_nonneg fun y => by positivity) x, U_quad R hh, U_lin R (hb.U R) (hh.U R)]
  refine (lintegral_mono step1).trans (le_of_eq ?_)
  have i1 := (((hb.U R).U R)).int π
  have i2 : Integrable (fun x => 2 * h x * U κ w (U κ w h) x) π := by
    have := ((hh.mul ((hh.U R).U R)).int π).const_mul 2
    refine this.congr (Eventually.of_forall fun x => ?_)
    simp only
    ring
  have i3 := hb.int π
  have i4 : Integrable (fun x => U κ w (U κ w fun y => h y ^ 2) x - 2 * h x * U κ w (U κ w h) x) π := i1.sub i2
  have nn : ∀ x, 0 ≤ U κ w (U κ w fun y => h y ^ 2) x - 2 * h x * U κ w (U κ w h) x + h x ^ 2 := by
    intro x
    have hd : Bdd (fun y => (h y - h x) ^ 2) ((B + |h x|) * (B + |h x|)) := (hh.sub (Bdd.const (h x))).pow
    have := U_nonneg (κ := κ) (w := w) (U_nonneg (κ := κ) (w := w) (h := fun y => (h y - h x) ^ 2) fun y => by positivity) x
    rwa [U_quad R hh, U_lin R (hb.U R) (hh.U R)] at this
  have i5 : Integrable (fun x => U κ w (U κ w fun y => h y ^ 2) x - 2 * h x * U κ w (U κ w h) x + h x ^ 2) π := i4.add i3
  rw [← ofReal_integral_eq_lintegral_ofReal i5 (Eventually.of_forall nn)]
  congr 1
  have e5 : ∫ x, (U κ w (U κ w fun y => h y ^ 2) x - 2 * h x * U κ w (U κ w h) x + h x ^ 2) ∂π = _ := integral_add i4 i3
  have e6 := integral_sub i1 i2
  have e7 : ∫ x, 2 * h x * U κ w (U κ w h) x ∂π = 2 * ∫ x, h x * U κ w (U κ w h) x ∂π := by
    rw [← integral_const_mul]
    refine integral_congr_ae (Eventually.of_forall fun x => ?_)
    simp only
    ring
  rw [e5, e6, e7, U_kept R (hb.U R), U_kept R hb]
  ring

theorem Bdd.memLp {h : V → ℝ} {B : ℝ} (hh : Bdd h B) (π : Measure V) [IsFiniteMeasure π] : MemLp h 2 π :=
  MemLp.of_bound hh.meas.aestronglyMeasurable B (Eventually.of_forall fun x => by rw [Real.norm_eq_abs]; exact hh.le x)

theorem norm_sub_sq {f g : V → ℝ} (hf : MemLp f 2 π) (hg : MemLp g 2 π) : ‖hf.toLp - hg.toLp‖ ^ 2 = ∫ x, (f x - g x) ^ 2 ∂π := by
  rw [← real_inner_self_eq_norm_sq, L2.inner_def]
  refine integral_congr_ae ?_
  filter_upwards [Lp.coeFn_sub hf.toLp hg.toLp, hf.coeFn_toLp, hg.coeFn_toLp] with x h1 h2 h3
  rw [h1, Pi.sub_apply, h2, h3]
  simp [sq]

/-- Averages after many updates are constant, in the mean square. -/
theorem corr_tendsto (R : Rev κ w π) (hr : Reach κ w π) {h : V → ℝ} {B : ℝ} (hh : Bdd h B) :
    Tendsto (fun n => corr κ w π h (2 * n)) atTop (𝓝 ((∫ x, h x ∂π) ^ 2)) := by
  obtain ⟨K, hK, hK0, hr⟩ := hr
  set m := ∫ x, h x ∂π with hm
  have hlow : ∀ n, m ^ 2 ≤ corr κ w π h (2 * n) := fun n => by
    have h1 := corr_var R hh n m
    have h2 : 0 ≤ ∫ x, ((U κ w)^[n] h x - m) ^ 2 ∂π := integral_nonneg fun x => by positivity
    rw [← hm] at h1
    nlinarith
  obtain ⟨l, hl⟩ : ∃ l, Tendsto (fun n => corr κ w π h (2 * n)) atTop (𝓝 l) :=
    ⟨_, tendsto_atTop_ciInf (corr_anti R hh) ⟨m ^ 2, by rintro _ ⟨n, rfl⟩; exact hlow n⟩⟩
  let F : ℕ → V → ℝ := fun n => (U κ w)^[2 * n] h
  have hF : ∀ n, Bdd (F n) B := fun n => hh.iter R _
  let G : ℕ → Lp ℝ 2 π := fun n => ((hF n).memLp π).toLp
  have hcau : CauchySeq G := by
    rw [Metric.cauchySeq_iff']
    intro ε hε
    obtain ⟨N, hN⟩ := (Metric.tendsto_atTop.mp hl) (ε ^ 2 / 8) (by positivity)
    refine ⟨N, fun n hn => ?_⟩
    rw [dist_eq_norm]
    have h1 := norm_sub_sq ((hF n).memLp π) ((hF N).memLp π)
    rw [corr_dist R hh] at h1
    have a1 := abs_lt.mp (by simpa [Real.dist_eq] using hN (2 * n) (by omega))
    have a2 := abs_lt.mp (by simpa [Real.dist_eq] using hN (n + N) (by omega))
    have a3 := abs_lt.mp (by simpa [Real.dist_eq] using hN (2 * N) (by omega))
    have h2 : ‖G n - G N‖ ^ 2 < ε ^ 2 := by
      show ‖((hF n).memLp π).toLp - ((hF N).memLp π).toLp‖ ^ 2 < ε ^ 2
      rw [h1]
      nlinarith [a1.1, a1.2, a2.1, a2.2, a3.1, a3.2, sq_nonneg ε]
    exact lt_of_pow_lt_pow_left₀ 2 hε.le h2
  obtain ⟨g, hg⟩ := cauchySeq_tendsto_of_complete hcau
  -- the limit is constant
  have hgc : ∃ c : ℝ, ∀ᵐ x ∂π, g x = c := by
    obtain ⟨ns, hns, hae⟩ := (tendstoInMeasure_of_tendsto_Lp hg).exists_seq_tendsto_ae
    have hae' : ∀ᵐ x ∂π, Tendsto (fun i => F (ns i) x) atTop (𝓝 (g x)) := by
      have hall : ∀ᵐ x ∂π, ∀ n, G n x = F n x := ae_all_iff.mpr fun n => ((hF n).memLp π).coeFn_toLp
      filter_upwards [hae, hall] with x h1 h2
      simpa only [h2] using h1
    have hD : Tendsto (fun i => ∫⁻ p, K p * ENNReal.ofReal ((F (ns i) p.2 - F (ns i) p.1) ^ 2) ∂(π.prod π)) atTop (𝓝 0) := by
      have hb : ∀ i, ∫⁻ p, K p * ENNReal.ofReal ((F (ns i) p.2 - F (ns i) p.1) ^ 2) ∂(π.prod π) ≤
          ENNReal.ofReal (2 * (corr κ w π h (2 * (2 * ns i)) - corr κ w π h (2 * (2 * ns i + 1)))) := by
        intro i
        refine (dirichlet R hK hr (hF (ns i))).trans (le_of_eq ?_)
        have e1 := corr_sq R hh (2 * ns i)
        have e2 := corr_add R hh (2 * ns i) (2 * ns i + 2)
        rw [Function.iterate_succ_apply', Function.iterate_succ_apply'] at e2
        have e3 : 2 * ns i + (2 * ns i + 2) = 2 * (2 * ns i + 1) := by ring
        rw [e3] at e2
        show ENNReal.ofReal (2 * (∫ x, (U κ w)^[2 * ns i] h x ^ 2 ∂π - ∫ x, (U κ w)^[2 * ns i] h x * U κ w (U κ w ((U κ w)^[2 * ns i] h)) x ∂π)) = _
        rw [e1, e2]
      have ht : Tendsto (fun i => ENNReal.ofReal (2 * (corr κ w π h (2 * (2 * ns i)) - corr κ w π h (2 * (2 * ns i + 1))))) atTop (𝓝 0) := by
        have t1 : Tendsto (fun i => 2 * ns i) atTop atTop := tendsto_atTop_mono (fun i => by omega) hns.tendsto_atTop
        have t2 : Tendsto (fun i => 2 * ns i + 1) atTop atTop := tendsto_atTop_mono (fun i => by omega) hns.tendsto_atTop
        have := (((hl.comp t1).sub (hl.comp t2)).const_mul 2)
        rw [sub_self, mul_zero] at this
        have h0 := ENNReal.tendsto_ofReal this
        rw [ENNReal.ofReal_zero] at h0
        exact h0
      exact tendsto_of_tendsto_of_tendsto_of_le_of_le tendsto_const_nhds ht (fun i => zero_le) hb
    have mi : ∀ i, Measurable fun p : V × V => K p * ENNReal.ofReal ((F (ns i) p.2 - F (ns i) p.1) ^ 2) := fun i =>
      hK.mul ((((hF (ns i)).meas.comp measurable_snd).sub ((hF (ns i)).meas.comp measurable_fst)).pow_const 2).ennreal_ofReal
    have hfat := lintegral_liminf_le (μ := π.prod π) (u := atTop) mi
    rw [hD.liminf_eq] at hfat
    have mlim : Measurable fun p : V × V => liminf (fun i => K p * ENNReal.ofReal ((F (ns i) p.2 - F (ns i) p.1) ^ 2)) atTop := Measurable.liminf mi
    have hz := (lintegral_eq_zero_iff mlim).mp (le_antisymm hfat zero_le)
    have h1 : ∀ᵐ p ∂(π.prod π), Tendsto (fun i => F (ns i) p.1) atTop (𝓝 (g p.1)) := Measure.quasiMeasurePreserving_fst.ae hae'
    have h2 : ∀ᵐ p ∂(π.prod π), Tendsto (fun i => F (ns i) p.2) atTop (𝓝 (g p.2)) := Measure.quasiMeasurePreserving_snd.ae hae'
    have heq : ∀ᵐ p ∂(π.prod π), g p.2 = g p.1 := by
      filter_upwards [hz, h1, h2, hK0] with p hz h1 h2 h0
      by_contra hne
      have hpos : 0 < (g p.2 - g p.1) ^ 2 := by
        have : g p.2 - g p.1 ≠ 0 := sub_ne_zero.mpr hne
        positivity
      have ht : Tendsto (fun i => ENNReal.ofReal ((F (ns i) p.2 - F (ns i) p.1) ^ 2)) atTop (𝓝 (ENNReal.ofReal ((g p.2 - g p.1) ^ 2))) :=
        ENNReal.tendsto_ofReal ((h2.sub h1).pow 2)
      have hev : ∀ᶠ i in atTop, ENNReal.ofReal ((g p.2 - g p.1) ^ 2 / 2) ≤ ENNReal.ofReal ((F (ns i) p.2 - F (ns i) p.1) ^ 2) := by
        have : ENNReal.ofReal ((g p.2 - g p.1) ^ 2 / 2) < ENNReal.ofReal ((g p.2 - g p.1) ^ 2) := (ENNReal.ofReal_lt_ofReal_iff hpos).mpr (by linarith)
        exact (ht.eventually (lt_mem_nhds this)).mono fun i hi => hi.le
      have hle : K p * ENNReal.ofReal ((g p.2 - g p.1) ^ 2 / 2) ≤ liminf (fun i => K p * ENNReal.ofReal ((F (ns i) p.2 - F (ns i) p.1) ^ 2)) atTop :=
        le_liminf_of_le (by isBoundedDefault) (hev.mono fun i hi => mul_le_mul_right hi (K p))
      rw [hz] at hle
      have : K p * ENNReal.ofReal ((g p.2 - g p.1) ^ 2 / 2) = 0 := le_antisymm hle zero_le
      rcases mul_eq_zero.mp this with h | h
      · exact h0 h
      · rw [ENNReal.ofReal_eq_zero] at h
        linarith
    obtain ⟨x, hx⟩ := (Measure.ae_ae_of_ae_prod heq).exists
    exact ⟨g x, hx⟩
  obtain ⟨c, hc⟩ := hgc
  -- its value
  have hdist : ∀ n, ‖G n - g‖ ^ 2 = corr κ w π h (2 * (2 * n)) - 2 * c * m + c ^ 2 := by
    intro n
    have hgl : g = ((Bdd.const c).memLp π : MemLp (fun _ : V => c) 2 π).toLp := by
      apply Lp.ext
      filter_upwards [hc, ((Bdd.const c).memLp π : MemLp (fun _ : V => c) 2 π).coeFn_toLp] with x h1 h2
      rw [h1, h2]
    rw [hgl, norm_sub_sq, hm, ← corr_var R hh]
  have hlim : Tendsto (fun n => corr κ w π h (2 * (2 * n)) - 2 * c * m + c ^ 2) atTop (𝓝 (l - 2 * c * m + c ^ 2)) := by
    have t1 : Tendsto (fun i : ℕ => 2 * i) atTop atTop := tendsto_atTop_mono (fun i => by simp only [id]; omega) tendsto_id
    exact ((hl.comp t1).sub_const _).add_const _
  have hzero : Tendsto (fun n => ‖G n - g‖ ^ 2) atTop (𝓝 0) := by
    have := (tendsto_iff_norm_sub_tendsto_zero.mp hg).pow 2
    simpa using this
  simp_rw [hdist] at hzero
  have hl2 : l - 2 * c * m + c ^ 2 = 0 := tendsto_nhds_unique hlim hzero
  have hl1 : m ^ 2 ≤ l := ge_of_tendsto' hl hlow
  have : l = m ^ 2 := by nlinarith [sq_nonneg (m - c)]
  rw [← this]
  exact hl

/-! ### Convergence of distributions -/

theorem from_bounded (R : Rev κ w π) (hr : Reach κ w π) {d : V → ℝ} {B : ℝ} (hd : Bdd d B) {ε : ℝ} (hε : 0 < ε) :
    ∃ N, ∀ n ≥ N, ∀ f : V → ℝ, Bdd f 1 → |∫ x, d x * (U κ w)^[n] f x ∂π - (∫ x, d x ∂π) * ∫ x, f x ∂π| ≤ ε := by
  obtain ⟨N, hN⟩ := (Metric.tendsto_atTop.mp (corr_tendsto R hr hd)) (ε ^ 2) (by positivity)
  refine ⟨N, fun n hn f hf => ?_⟩
  set m := ∫ x, d x ∂π with hm
  have hc := hN n hn
  rw [Real.dist_eq] at hc
  have hv := corr_var R hd n m
  rw [← hm] at hv
  have hdm : Bdd (fun x => (U κ w)^[n] d x - m) (B + |m|) := (hd.iter R n).sub (Bdd.const m)
  have hdf := hdm.mul hf
  have e : ∫ x, d x * (U κ w)^[n] f x ∂π - m * ∫ x, f x ∂π = ∫ x, ((U κ w)^[n] d x - m) * f x ∂π := by
    rw [iter_symm R hd hf]
    simp_rw [sub_mul]
    rw [integral_sub (((hd.iter R n).mul hf).int π) ((hf.int π).const_mul m), integral_const_mul]
  rw [e]
  have h1 := sq_mean π hdf
  have h2 : ∫ x, (((U κ w)^[n] d x - m) * f x) ^ 2 ∂π ≤ ∫ x, ((U κ w)^[n] d x - m) ^ 2 ∂π := by
    refine integral_mono (hdf.pow.int π) (hdm.pow.int π) fun x => ?_
    simp only [mul_pow]
    have : f x ^ 2 ≤ 1 := by
      rw [← sq_abs]
      exact pow_le_one₀ (abs_nonneg _) (hf.le x)
    nlinarith [sq_nonneg ((U κ w)^[n] d x - m)]
  refine abs_le_of_sq_le_sq ?_ hε.le |> fun h => h
  have := (abs_lt.mp hc).2
  nlinarith

/-- From any spread-out start. -/
theorem from_density (R : Rev κ w π) (hr : Reach κ w π) (α : Measure V) [IsFiniteMeasure α] (hα : α ≪ π) {ε : ℝ} (hε : 0 < ε) :
    ∃ N, ∀ n ≥ N, ∀ f : V → ℝ, Bdd f 1 → |∫ x, (U κ w)^[n] f x ∂α - α.real Set.univ * ∫ x, f x ∂π| ≤ ε := by
  let D : V → ℝ := fun x => (α.rnDeriv π x).toReal
  have mD : Measurable D := (Measure.measurable_rnDeriv α π).ennreal_toReal
  have iD : Integrable D π := Measure.integrable_toReal_rnDeriv
  have D0 : ∀ x, 0 ≤ D x := fun x => ENNReal.toReal_nonneg
  have hint : ∀ F : V → ℝ, ∫ x, F x ∂α = ∫ x, D x * F x ∂π := fun F => by
    have := integral_rnDeriv_smul (f := F) hα
    simp only [smul_eq_mul] at this
    exact this.symm
  have hmass : α.real Set.univ = ∫ x, D x ∂π := by
    have := hint fun _ => 1
    simp only [integral_const, smul_eq_mul, mul_one] at this
    exact this
  have bM : ∀ M : ℕ, Bdd (fun x => min (D x) M) M := fun M => ⟨mD.min measurable_const, fun x => by
    rw [abs_of_nonneg (le_min (D0 x) (Nat.cast_nonneg M))]
    exact min_le_right _ _⟩
  have hcut : Tendsto (fun M : ℕ => ∫ x, min (D x) M ∂π) atTop (𝓝 (∫ x, D x ∂π)) := by
    refine tendsto_integral_of_dominated_convergence D (fun M => (bM M).meas.aestronglyMeasurable) iD (fun M => Eventually.of_forall fun x => ?_)
      (Eventually.of_forall fun x => ?_)
    · rw [Real.norm_eq_abs, abs_of_nonneg (le_min (D0 x) (Nat.cast_nonneg M))]
      exact min_le_left _ _
    · refine tendsto_const_nhds.congr' ?_
      filter_upwards [eventually_ge_atTop ⌈D x⌉₊] with M hM
      rw [min_eq_left]
      exact (Nat.le_ceil _).trans (by exact_mod_cast hM)
  obtain ⟨M, hM⟩ := (Metric.tendsto_atTop.mp hcut) (ε / 4) (by positivity)
  have hM := hM M le_rfl
  rw [Real.dist_eq] at hM
  obtain ⟨N, hN⟩ := from_bounded R hr (bM M) (half_pos hε)
  refine ⟨N, fun n hn f hf => ?_⟩
  have h1 := hN n hn f hf
  rw [hint, hmass]
  have hU := hf.iter R n
  have iM := (bM M).int π
  have iDM : Integrable (fun x => D x - min (D x) M) π := iD.sub iM
  have iDU : Integrable (fun x => D x * (U κ w)^[n] f x) π := by
    refine iD.mul_bdd (c := 1) hU.meas.aestronglyMeasurable (Eventually.of_forall fun x => ?_)
    rw [Real.norm_eq_abs]
    exact hU.le x
  have iMU := ((bM M).mul hU).int π
  have h2 : |∫ x, D x * (U κ w)^[n] f x ∂π - ∫ x, min (D x) M * (U κ w)^[n] f x ∂π| ≤ ε / 4 := by
    rw [← integral_sub iDU iMU]
    refine (abs_integral_le_integral_abs).trans ?_
    have h3 : ∫ x, |D x * (U κ w)^[n] f x - min (D x) M * (U κ w)^[n] f x| ∂π ≤ ∫ x, (D x - min (D x) M) ∂π := by
      refine integral_mono (iDU.sub iMU).abs iDM fun x => ?_
      simp only
      rw [← sub_mul, abs_mul, abs_of_nonneg (sub_nonneg.mpr (min_le_left _ _))]
      exact mul_le_of_le_one_right (sub_nonneg.mpr (min_le_left _ _)) (hU.le x)
    refine h3.trans ?_
    rw [integral_sub iD iM]
    linarith [(abs_lt.mp hM).1]
  have h4 : |(∫ x, min (D x) M ∂π) * ∫ x, f x ∂π - (∫ x, D x ∂π) * ∫ x, f x ∂π| ≤ ε / 4 := by
    rw [← sub_mul, abs_mul]
    have hf1 := average_between π hf.meas fun x => abs_le.mp (hf.le x)
    refine (mul_le_of_le_one_right (abs_nonneg _) (abs_le.mpr hf1)).trans hM.le
  rw [abs_le] at h1 h2 h4 ⊢
  constructor <;> linarith [h1.1, h1.2, h2.1, h2.2, h4.1, h4.2]

/-- From a place which an update leaves with some chance, for places that are spread out. -/
theorem from_point (R : Rev κ w π) (hr : Reach κ w π) (x : V) (α : Measure V) [IsFiniteMeasure α] (hα : α ≪ π) {r : ℝ} (r0 : 0 ≤ r) (r1 : r < 1)
    (hone : r + α.real Set.univ = 1) (hx : ∀ f : V → ℝ, Bdd f 1 → U κ w f x = r * f x + ∫ y, f y ∂α) {ε : ℝ} (hε : 0 < ε) :
    ∃ N, ∀ n ≥ N, ∀ f : V → ℝ, Bdd f 1 → |(U κ w)^[n] f x - ∫ y, f y ∂π| ≤ ε := by
  have hr1 : 0 < 1 - r := by linarith
  obtain ⟨N, hN⟩ := from_density R hr α hα (ε := ε * (1 - r) / 2) (by positivity)
  obtain ⟨j, hj⟩ := exists_pow_lt_of_lt_one (by positivity : 0 < ε / 4) r1
  have hbound : ∀ i, ∀ f : V → ℝ, Bdd f 1 → |(U κ w)^[N + i] f x - ∫ y, f y ∂π| ≤ 2 * r ^ i + ε / 2 := by
    intro i f hf
    induction i with
    | zero =>
      have h1 := (hf.iter R N).le x
      have hf1 := average_between π hf.meas fun x => abs_le.mp (hf.le x)
      rw [abs_le] at h1 ⊢
      simp only [add_zero, pow_zero, mul_one]
      constructor <;> linarith [h1.1, h1.2, hf1.1, hf1.2]
    | succ i ih =>
      have e1 : (U κ w)^[N + (i + 1)] f x = r * (U κ w)^[N + i] f x + ∫ y, (U κ w)^[N + i] f y ∂α := by
        rw [← add_assoc, Function.iterate_succ_apply', hx _ (hf.iter R _)]
      have h2 := hN (N + i) (by omega) f hf
      have h3 : r * |(U κ w)^[N + i] f x - ∫ y, f y ∂π| ≤ r * (2 * r ^ i + ε / 2) := mul_le_mul_of_nonneg_left ih r0
      have e2 : (U κ w)^[N + (i + 1)] f x - ∫ y, f y ∂π =
          r * ((U κ w)^[N + i] f x - ∫ y, f y ∂π) + (∫ y, (U κ w)^[N + i] f y ∂α - α.real Set.univ * ∫ y, f y ∂π) := by
        rw [e1]
        have : α.real Set.univ = 1 - r := by linarith
        rw [this]
        ring
      rw [e2]
      refine (abs_add_le _ _).trans ?_
      rw [abs_mul, abs_of_nonneg r0, pow_succ]
      linarith
  refine ⟨N + j, fun n hn f hf => ?_⟩
  obtain ⟨i, rfl⟩ := Nat.exists_eq_add_of_le (show N ≤ n by omega)
  refine (hbound i f hf).trans ?_
  have : r ^ i ≤ r ^ j := pow_le_pow_of_le_one r0 r1.le (by omega)
  linarith

end Jaqmc.Average.Ergodic
