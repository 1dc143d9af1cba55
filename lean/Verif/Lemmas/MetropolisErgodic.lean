import Verif.Lemmas.Ergodic
/-!
The Metropolis updates of a walker as reversible updates that go everywhere in two steps (C138).
-/
namespace Jaqmc.Average.Ergodic
open MeasureTheory ProbabilityTheory Jaqmc.Average Jaqmc.Average.Spec Jaqmc.LossGrad.Spec Filter
open scoped ENNReal Topology

variable {V N Ω Key : Type} [MeasurableSpace V] [MeasurableSpace N] [MeasurableSpace Ω]

/-- One Metropolis update, with its two draws. -/
noncomputable def metro (ψ : V → ℂ) (move : N → V → V) (x : V) (q : N × ℝ) : V := wstep (fun y => ‖ψ y‖ ^ 2) move x q.1 q.2

theorem metro_measurable {ψ : V → ℂ} (hψ : Measurable ψ) {move : N → V → V} (hmv : Measurable fun p : V × N => move p.2 p.1) :
    Measurable fun p : V × N × ℝ => metro ψ move p.1 p.2 := wstep_measurable (hψ.norm.pow_const 2) hmv

theorem metro_split (ψ : V → ℂ) (move : N → V → V) (x : V) (z : N) (f : V → ℝ≥0∞) :
    ∫⁻ u, f (metro ψ move x (z, u)) ∂unif =
      unif {u | u * ‖ψ x‖ ^ 2 < ‖ψ (move z x)‖ ^ 2} * f (move z x) + unif {u | ¬ u * ‖ψ x‖ ^ 2 < ‖ψ (move z x)‖ ^ 2} * f x := by
  have : ∀ u, f (metro ψ move x (z, u)) = if u * ‖ψ x‖ ^ 2 < ‖ψ (move z x)‖ ^ 2 then f (move z x) else f x := by
    intro u; unfold metro wstep; dsimp only; split <;> rfl
  simp_rw [this]
  exact u_integral _ _ _ _

theorem balance_half {μ : Measure V} {ν : Measure N} [IsProbabilityMeasure ν] {a : V → ℝ} (ha : Measurable a) (h0 : ∀ x, 0 ≤ a x)
    {move : N → V → V} (hmv : Measurable fun p : V × N => move p.2 p.1) {F : V × V → ℝ≥0∞} (hF : Measurable F) :
    ∫⁻ x, ENNReal.ofReal (a x) * ∫⁻ z, ∫⁻ u, F (x, wstep a move x z u) ∂unif ∂ν ∂μ =
      (∫⁻ x, ∫⁻ z, ENNReal.ofReal (min (a x) (a (move z x))) * F (x, move z x) ∂ν ∂μ) +
        ∫⁻ x, ∫⁻ z, ENNReal.ofReal (a x) * unif {u | ¬ u * a x < a (move z x)} * F (x, x) ∂ν ∂μ := by
  have hmz : ∀ x, Measurable fun z => move z x := fun x => hmv.comp (measurable_const.prodMk measurable_id)
  have hS : Measurable fun p : V × V => ENNReal.ofReal (min (a p.1) (a p.2)) * F p := by fun_prop
  have e1 : ∀ x z, ENNReal.ofReal (a x) * ∫⁻ u, F (x, wstep a move x z u) ∂unif =
      ENNReal.ofReal (min (a x) (a (move z x))) * F (x, move z x) + ENNReal.ofReal (a x) * unif {u | ¬ u * a x < a (move z x)} * F (x, x) := by
    intro x z
    have : ∀ u, F (x, wstep a move x z u) = if u * a x < a (move z x) then F (x, move z x) else F (x, x) := by
      intro u; unfold wstep; split <;> rfl
    simp_rw [this]
    rw [u_integral, mul_add, ← mul_assoc, ← mul_assoc, accept_mass _ _ (h0 x) (h0 _)]
  have e2 : ∀ x, ENNReal.ofReal (a x) * ∫⁻ z, ∫⁻ u, F (x, wstep a move x z u) ∂unif ∂ν =
      ∫⁻ z, ENNReal.ofReal (min (a x) (a (move z x))) * F (x, move z x) ∂ν +
      ∫⁻ z, ENNReal.ofReal (a x) * unif {u | ¬ u * a x < a (move z x)} * F (x, x) ∂ν := by
    intro x
    rw [← lintegral_const_mul' _ _ ENNReal.ofReal_ne_top, ← lintegral_add_left]
    · exact lintegral_congr fun z => e1 x z
    · exact hS.comp (measurable_const.prodMk (hmz x))
  simp_rw [e2]
  have hm1 : Measurable fun p : V × N => ENNReal.ofReal (min (a p.1) (a (move p.2 p.1))) * F (p.1, move p.2 p.1) :=
    hS.comp (measurable_fst.prodMk hmv)
  rw [lintegral_add_left hm1.lintegral_prod_right']

/-- Detailed balance, not normalised. -/
theorem balance {μ : Measure V} {ν : Measure N} [IsProbabilityMeasure ν] {a : V → ℝ} (ha : Measurable a) (h0 : ∀ x, 0 ≤ a x)
    {move : N → V → V} (hmv : Measurable fun p : V × N => move p.2 p.1) (hr : Reversible μ ν move) {F : V × V → ℝ≥0∞} (hF : Measurable F) :
    ∫⁻ x, ENNReal.ofReal (a x) * ∫⁻ z, ∫⁻ u, F (x, wstep a move x z u) ∂unif ∂ν ∂μ =
      ∫⁻ x, ENNReal.ofReal (a x) * ∫⁻ z, ∫⁻ u, F (wstep a move x z u, x) ∂unif ∂ν ∂μ := by
  have hF' : Measurable fun p : V × V => F (p.2, p.1) := hF.comp measurable_swap
  rw [balance_half ha h0 hmv hF, balance_half ha h0 hmv hF']
  congr 1
  rw [hr (fun p => ENNReal.ofReal (min (a p.1) (a p.2)) * F p) (by fun_prop)]
  refine lintegral_congr fun x => lintegral_congr fun z => ?_
  rw [min_comm]

/-- Detailed balance. -/
theorem metro_rev {μ : Measure V} {ν : Measure N} [IsProbabilityMeasure ν] {ψ : V → ℂ} (hψ : Measurable ψ) {move : N → V → V}
    (hmv : Measurable fun p : V × N => move p.2 p.1) (hr : Reversible μ ν move) : Rev (ν.prod unif) (metro ψ move) (walkerLaw μ ψ) := by
  have hw := metro_measurable hψ hmv
  refine ⟨hw, fun F hF => ?_⟩
  have ha : Measurable fun y => ‖ψ y‖ ^ 2 := hψ.norm.pow_const 2
  have hden : Measurable fun x => ENNReal.ofReal (‖ψ x‖ ^ 2 / ∫ y, ‖ψ y‖ ^ 2 ∂μ) := (ha.div_const _).ennreal_ofReal
  have es : ∀ x, ENNReal.ofReal (‖ψ x‖ ^ 2 / ∫ y, ‖ψ y‖ ^ 2 ∂μ) = ENNReal.ofReal (∫ y, ‖ψ y‖ ^ 2 ∂μ)⁻¹ * ENNReal.ofReal (‖ψ x‖ ^ 2) := by
    intro x
    have hZ : 0 ≤ ∫ y, ‖ψ y‖ ^ 2 ∂μ := integral_nonneg fun y => by positivity
    rw [← ENNReal.ofReal_mul (by positivity), div_eq_inv_mul]
  have half : ∀ G : V × V → ℝ≥0∞, Measurable G → ∀ m : V × N × ℝ → V × V, Measurable m →
      ∫⁻ p, G (m p) ∂((walkerLaw μ ψ).prod (ν.prod unif)) =
        ENNReal.ofReal (∫ y, ‖ψ y‖ ^ 2 ∂μ)⁻¹ * ∫⁻ x, ENNReal.ofReal (‖ψ x‖ ^ 2) * ∫⁻ z, ∫⁻ u, G (m (x, z, u)) ∂unif ∂ν ∂μ := by
    intro G hG m hm
    have m1 : Measurable fun p => G (m p) := hG.comp hm
    rw [lintegral_prod _ m1.aemeasurable]
    unfold walkerLaw
    rw [lintegral_withDensity_eq_lintegral_mul _ hden m1.lintegral_prod_right']
    simp only [Pi.mul_apply]
    simp_rw [es, mul_assoc]
    rw [lintegral_const_mul' _ _ ENNReal.ofReal_ne_top]
    congr 1
    refine lintegral_congr fun x => ?_
    have mq : Measurable fun q : N × ℝ => G (m (x, q)) := m1.comp measurable_prodMk_left
    rw [lintegral_prod _ mq.aemeasurable]
  have l := half F hF (fun p => (p.1, metro ψ move p.1 p.2)) (measurable_fst.prodMk hw)
  have r := half F hF (fun p => (metro ψ move p.1 p.2, p.1)) (hw.prodMk measurable_fst)
  have b := balance (μ := μ) (ν := ν) ha (fun x => by positivity) hmv hr hF
  rw [l, r]
  exact congrArg _ b

/-! ### Where an update can go -/

theorem accept_ge (A B : ℝ) (hB : 0 ≤ B) : ENNReal.ofReal (B / max A B) ≤ unif {u | u * A < B} := by
  rcases hB.eq_or_lt with h | h
  · rw [← h, zero_div, ENNReal.ofReal_zero]; exact zero_le
  · have hm : 0 < max A B := lt_max_of_lt_right h
    have h1 : B / max A B ≤ 1 := (div_le_one hm).mpr (le_max_right _ _)
    have hs : Set.Ico 0 (B / max A B) ⊆ {u | u * A < B} ∩ Set.Ico 0 1 := by
      rintro u ⟨h2, h3⟩
      refine ⟨?_, h2, lt_of_lt_of_le h3 h1⟩
      rw [lt_div_iff₀ hm] at h3
      exact lt_of_le_of_lt (mul_le_mul_of_nonneg_left (le_max_left _ _) h2) h3
    rw [unif, Measure.restrict_apply (measurableSet_lt (by fun_prop) (by fun_prop))]
    refine le_trans (le_of_eq ?_) (measure_mono hs)
    rw [Real.volume_Ico, sub_zero]

/-- How densely one update covers the target. -/
noncomputable def dens (μ : Measure V) (ψ : V → ℂ) (k : V × V → ℝ≥0∞) (p : V × V) : ℝ≥0∞ :=
  k p * ENNReal.ofReal ((∫ y, ‖ψ y‖ ^ 2 ∂μ) / max (‖ψ p.1‖ ^ 2) (‖ψ p.2‖ ^ 2))

theorem dens_measurable {μ : Measure V} {ψ : V → ℂ} (hψ : Measurable ψ) {k : V × V → ℝ≥0∞} (hk : Measurable k) : Measurable (dens μ ψ k) := by
  have ha : Measurable fun y => ‖ψ y‖ ^ 2 := hψ.norm.pow_const 2
  unfold dens
  exact hk.mul (((ha.comp measurable_fst).max (ha.comp measurable_snd)).const_div _).ennreal_ofReal

theorem metro_covers {μ : Measure V} {ν : Measure N} [IsProbabilityMeasure ν] {ψ : V → ℂ} (hψ : Measurable ψ) (hZ : 0 < ∫ y, ‖ψ y‖ ^ 2 ∂μ) {move : N → V → V}
    (hmv : Measurable fun p : V × N => move p.2 p.1) {k : V × V → ℝ≥0∞} (hk : Measurable k) (x : V)
    (hc : ∀ f : V → ℝ≥0∞, Measurable f → ∫⁻ y, k (x, y) * f y ∂μ ≤ ∫⁻ z, f (move z x) ∂ν) (f : V → ℝ≥0∞) (hf : Measurable f) :
    ∫⁻ y, dens μ ψ k (x, y) * f y ∂(walkerLaw μ ψ) ≤ ∫⁻ q, f (metro ψ move x q) ∂(ν.prod unif) := by
  have ha : Measurable fun y => ‖ψ y‖ ^ 2 := hψ.norm.pow_const 2
  have mq : Measurable fun q : N × ℝ => f (metro ψ move x q) := (hf.comp (metro_measurable hψ hmv)).comp measurable_prodMk_left
  rw [lintegral_prod _ mq.aemeasurable]
  have mG : Measurable fun y => ENNReal.ofReal (‖ψ y‖ ^ 2 / max (‖ψ x‖ ^ 2) (‖ψ y‖ ^ 2)) * f y := (ha.div (measurable_const.max ha)).ennreal_ofReal.mul hf
  have h2 : ∫⁻ z, ENNReal.ofReal (‖ψ (move z x)‖ ^ 2 / max (‖ψ x‖ ^ 2) (‖ψ (move z x)‖ ^ 2)) * f (move z x) ∂ν ≤ ∫⁻ z, ∫⁻ u, f (metro ψ move x (z, u)) ∂unif ∂ν := by
    refine lintegral_mono fun z => ?_
    rw [metro_split]
    exact le_trans (mul_le_mul_left (accept_ge _ _ (by positivity)) _) le_self_add
  refine le_trans (le_of_eq ?_) ((hc _ mG).trans h2)
  have hden : Measurable fun x => ENNReal.ofReal (‖ψ x‖ ^ 2 / ∫ y, ‖ψ y‖ ^ 2 ∂μ) := (ha.div_const _).ennreal_ofReal
  have mj : Measurable fun y => dens μ ψ k (x, y) * f y := ((dens_measurable hψ hk).comp measurable_prodMk_left).mul hf
  unfold walkerLaw
  rw [lintegral_withDensity_eq_lintegral_mul _ hden mj]
  refine lintegral_congr fun y => ?_
  simp only [Pi.mul_apply, dens]
  have : ENNReal.ofReal (‖ψ y‖ ^ 2 / max (‖ψ x‖ ^ 2) (‖ψ y‖ ^ 2)) =
      ENNReal.ofReal (‖ψ y‖ ^ 2 / ∫ y, ‖ψ y‖ ^ 2 ∂μ) * ENNReal.ofReal ((∫ y, ‖ψ y‖ ^ 2 ∂μ) / max (‖ψ x‖ ^ 2) (‖ψ y‖ ^ 2)) := by
    rw [← ENNReal.ofReal_mul (by positivity)]
    congr 1
    field_simp
  rw [this]
  ring

/-- Where two updates can go. -/
theorem metro_reach {μ : Measure V} {ν : Measure N} [IsProbabilityMeasure ν] {ψ : V → ℂ} (hψ : Measurable ψ) (hZ : 0 < ∫ y, ‖ψ y‖ ^ 2 ∂μ)
    [IsProbabilityMeasure (walkerLaw μ ψ)] {move : N → V → V}
    (hmv : Measurable fun p : V × N => move p.2 p.1) {k : V × V → ℝ≥0∞} (hk : Measurable k)
    (hc : ∀ x, ∀ f : V → ℝ≥0∞, Measurable f → ∫⁻ y, k (x, y) * f y ∂μ ≤ ∫⁻ z, f (move z x) ∂ν)
    (h2 : ∀ᵐ p ∂((walkerLaw μ ψ).prod (walkerLaw μ ψ)), ∃ᶠ z in ae (walkerLaw μ ψ), k (p.1, z) ≠ 0 ∧ k (z, p.2) ≠ 0) :
    Reach (ν.prod unif) (metro ψ move) (walkerLaw μ ψ) := by
  have mj := dens_measurable (μ := μ) hψ hk
  have mjj : Measurable fun p : (V × V) × V => dens μ ψ k (p.1.1, p.2) * dens μ ψ k (p.2, p.1.2) :=
    (mj.comp ((measurable_fst.comp measurable_fst).prodMk measurable_snd)).mul (mj.comp (measurable_snd.prodMk (measurable_snd.comp measurable_fst)))
  refine ⟨fun p => ∫⁻ z, dens μ ψ k (p.1, z) * dens μ ψ k (z, p.2) ∂(walkerLaw μ ψ), mjj.lintegral_prod_right', ?_, ?_⟩
  · have ha : Measurable fun y => ‖ψ y‖ ^ 2 := hψ.norm.pow_const 2
    have hpos : ∀ᵐ z ∂(walkerLaw μ ψ), 0 < ‖ψ z‖ ^ 2 := by
      unfold walkerLaw
      rw [ae_withDensity_iff (ha.div_const _).ennreal_ofReal]
      refine Eventually.of_forall fun z hz => ?_
      by_contra hcon
      have : ‖ψ z‖ ^ 2 = 0 := le_antisymm (not_lt.mp hcon) (by positivity)
      rw [this, zero_div, ENNReal.ofReal_zero] at hz
      exact hz rfl
    filter_upwards [h2] with p hp
    intro h0
    have mz : Measurable fun z => dens μ ψ k (p.1, z) * dens μ ψ k (z, p.2) := mjj.comp measurable_prodMk_left
    rw [lintegral_eq_zero_iff mz] at h0
    obtain ⟨z, hz, h0, hp0⟩ := (hp.and_eventually (h0.and hpos)).exists
    simp only [Pi.zero_apply, dens, mul_eq_zero, ENNReal.ofReal_eq_zero, hz.1, hz.2, false_or] at h0
    have m1 : 0 < max (‖ψ p.1‖ ^ 2) (‖ψ z‖ ^ 2) := lt_max_of_lt_right hp0
    have m2 : 0 < max (‖ψ z‖ ^ 2) (‖ψ p.2‖ ^ 2) := lt_max_of_lt_left hp0
    rcases h0 with h | h
    · exact absurd h (not_le.mpr (div_pos hZ m1))
    · exact absurd h (not_le.mpr (div_pos hZ m2))
  · intro x f hf
    have mw := metro_measurable hψ hmv
    have mg : Measurable fun y => ∫⁻ q, f (metro ψ move y q) ∂(ν.prod unif) := (hf.comp mw).lintegral_prod_right'
    refine le_trans ?_ (metro_covers hψ hZ hmv hk x (hc x) _ mg)
    have mjf : Measurable fun p : V × V => dens μ ψ k p * f p.2 := mj.mul (hf.comp measurable_snd)
    have e1 : ∫⁻ y, (∫⁻ z, dens μ ψ k (x, z) * dens μ ψ k (z, y) ∂(walkerLaw μ ψ)) * f y ∂(walkerLaw μ ψ) =
        ∫⁻ z, dens μ ψ k (x, z) * ∫⁻ y, dens μ ψ k (z, y) * f y ∂(walkerLaw μ ψ) ∂(walkerLaw μ ψ) := by
      have m3 : Measurable fun p : V × V => dens μ ψ k (x, p.2) * dens μ ψ k (p.2, p.1) * f p.1 :=
        ((mj.comp (measurable_const.prodMk measurable_snd)).mul (mj.comp measurable_swap)).mul (hf.comp measurable_fst)
      have l1 : ∀ y, (∫⁻ z, dens μ ψ k (x, z) * dens μ ψ k (z, y) ∂(walkerLaw μ ψ)) * f y =
          ∫⁻ z, dens μ ψ k (x, z) * dens μ ψ k (z, y) * f y ∂(walkerLaw μ ψ) := fun y => by
        rw [lintegral_mul_const]
        exact (mj.comp measurable_prodMk_left).mul (mj.comp measurable_prodMk_right)
      simp_rw [l1]
      rw [lintegral_lintegral_swap (f := fun y z => dens μ ψ k (x, z) * dens μ ψ k (z, y) * f y) m3.aemeasurable]
      refine lintegral_congr fun z => ?_
      simp_rw [mul_assoc]
      rw [lintegral_const_mul]
      exact mjf.comp measurable_prodMk_left
    rw [e1]
    refine lintegral_mono fun z => mul_le_mul_right (metro_covers hψ hZ hmv hk z (hc z) f hf) _

/-! ### One update from a given place -/

/-- The draws for which the move is accepted. -/
def accepted (ψ : V → ℂ) (move : N → V → V) (x : V) : Set (N × ℝ) := {q | q.2 * ‖ψ x‖ ^ 2 < ‖ψ (move q.1 x)‖ ^ 2}

theorem accepted_measurable {ψ : V → ℂ} (hψ : Measurable ψ) {move : N → V → V} (hmv : Measurable fun p : V × N => move p.2 p.1) (x : V) :
    MeasurableSet (accepted ψ move x) := by
  have hm : Measurable fun q : N × ℝ => move q.1 x := hmv.comp (measurable_const.prodMk measurable_fst)
  have h1 : Measurable fun q : N × ℝ => ψ (move q.1 x) := hψ.comp hm
  have h2 : Measurable fun q : N × ℝ => ‖ψ (move q.1 x)‖ ^ 2 := h1.norm.pow_const 2
  have h3 : Measurable fun q : N × ℝ => q.2 * ‖ψ x‖ ^ 2 := measurable_snd.mul_const _
  exact measurableSet_lt h3 h2

/-- Where the walker is after an accepted move. -/
noncomputable def landing (ν : Measure N) (ψ : V → ℂ) (move : N → V → V) (x : V) : Measure V :=
  ((ν.prod unif).restrict (accepted ψ move x)).map fun q => move q.1 x

theorem landing_finite (ν : Measure N) [IsProbabilityMeasure ν] (ψ : V → ℂ) (move : N → V → V) (x : V) : IsFiniteMeasure (landing ν ψ move x) := by
  unfold landing; infer_instance

theorem update_eq {ν : Measure N} [IsProbabilityMeasure ν] {ψ : V → ℂ} (hψ : Measurable ψ) {move : N → V → V} (hmv : Measurable fun p : V × N => move p.2 p.1) (x : V)
    {f : V → ℝ} {B : ℝ} (hf : Bdd f B) :
    U (ν.prod unif) (metro ψ move) f x = (ν.prod unif).real (accepted ψ move x)ᶜ * f x + ∫ y, f y ∂(landing ν ψ move x) := by
  have hm : Measurable fun q : N × ℝ => move q.1 x := hmv.comp (measurable_const.prodMk measurable_fst)
  have hA := accepted_measurable hψ hmv x
  have hw : Measurable fun q : N × ℝ => f (metro ψ move x q) := (hf.meas.comp (metro_measurable hψ hmv)).comp measurable_prodMk_left
  have hi : Integrable (fun q : N × ℝ => f (metro ψ move x q)) (ν.prod unif) := bounded_integrable _ hw fun q => abs_le.mp (hf.le _)
  unfold U
  rw [← integral_add_compl hA hi, add_comm]
  congr 1
  · rw [setIntegral_congr_fun (g := fun _ => f x) hA.compl, setIntegral_const, smul_eq_mul]
    intro q hq
    have : ¬ q.2 * ‖ψ x‖ ^ 2 < ‖ψ (move q.1 x)‖ ^ 2 := hq
    show f (wstep _ move x q.1 q.2) = f x
    unfold wstep
    rw [if_neg this]
  · unfold landing
    rw [integral_map hm.aemeasurable hf.meas.aestronglyMeasurable]
    refine setIntegral_congr_fun hA fun q hq => ?_
    have : q.2 * ‖ψ x‖ ^ 2 < ‖ψ (move q.1 x)‖ ^ 2 := hq
    show f (wstep _ move x q.1 q.2) = f (move q.1 x)
    unfold wstep
    rw [if_pos this]

theorem landing_mass {ν : Measure N} [IsProbabilityMeasure ν] {ψ : V → ℂ} {move : N → V → V} (hmv : Measurable fun p : V × N => move p.2 p.1) (x : V) :
    (landing ν ψ move x) Set.univ = (ν.prod unif) (accepted ψ move x) := by
  have hm : Measurable fun q : N × ℝ => move q.1 x := hmv.comp (measurable_const.prodMk measurable_fst)
  unfold landing
  rw [Measure.map_apply hm MeasurableSet.univ, Set.preimage_univ, Measure.restrict_apply_univ]

/-- Accepted moves of spread-out proposals go where the wavefunction is. -/
theorem landing_ac {μ : Measure V} {ν : Measure N} [IsProbabilityMeasure ν] {ψ : V → ℂ} (hψ : Measurable ψ) (hZ : 0 < ∫ y, ‖ψ y‖ ^ 2 ∂μ) {move : N → V → V}
    (hmv : Measurable fun p : V × N => move p.2 p.1) (x : V) (hac : ν.map (fun z => move z x) ≪ μ) : landing ν ψ move x ≪ walkerLaw μ ψ := by
  have hmz : Measurable fun z : N => move z x := hmv.comp (measurable_const.prodMk measurable_id)
  have hm : Measurable fun q : N × ℝ => move q.1 x := hmz.comp measurable_fst
  have ha : Measurable fun y => ‖ψ y‖ ^ 2 := hψ.norm.pow_const 2
  have hden : Measurable fun x => ENNReal.ofReal (‖ψ x‖ ^ 2 / ∫ y, ‖ψ y‖ ^ 2 ∂μ) := (ha.div_const _).ennreal_ofReal
  refine Measure.AbsolutelyContinuous.mk fun s hs h0 => ?_
  unfold walkerLaw at h0
  rw [withDensity_apply_eq_zero hden] at h0
  have hset : MeasurableSet ({x | ENNReal.ofReal (‖ψ x‖ ^ 2 / ∫ y, ‖ψ y‖ ^ 2 ∂μ) ≠ 0} ∩ s) :=
    (measurableSet_eq_fun hden measurable_const).compl.inter hs
  have h1 := hac h0
  rw [Measure.map_apply hmz hset] at h1
  unfold landing
  rw [Measure.map_apply hm hs, Measure.restrict_apply (hm hs)]
  have hneg : (ν.prod unif) (Set.univ ×ˢ (Set.Ico (0 : ℝ) 1)ᶜ) = 0 := by
    rw [Measure.prod_prod]
    have : unif (Set.Ico (0 : ℝ) 1)ᶜ = 0 := by
      rw [unif, Measure.restrict_apply measurableSet_Ico.compl, Set.compl_inter_self, measure_empty]
    rw [this, mul_zero]
  have hpre : (ν.prod unif) (((fun z : N => move z x) ⁻¹' ({x | ENNReal.ofReal (‖ψ x‖ ^ 2 / ∫ y, ‖ψ y‖ ^ 2 ∂μ) ≠ 0} ∩ s)) ×ˢ (Set.univ : Set ℝ)) = 0 := by
    rw [Measure.prod_prod, h1, zero_mul]
  refine measure_mono_null ?_ (measure_union_null hneg hpre)
  rintro q ⟨hq1, hq2⟩
  by_cases hu : q.2 ∈ Set.Ico (0 : ℝ) 1
  · right
    refine ⟨⟨?_, hq1⟩, trivial⟩
    have hpos : 0 < ‖ψ (move q.1 x)‖ ^ 2 := lt_of_le_of_lt (mul_nonneg hu.1 (by positivity)) hq2
    show ENNReal.ofReal (‖ψ (move q.1 x)‖ ^ 2 / ∫ y, ‖ψ y‖ ^ 2 ∂μ) ≠ 0
    exact (ENNReal.ofReal_pos.mpr (div_pos hpos hZ)).ne'
  · left
    exact ⟨trivial, hu⟩

/-- Some moves are accepted. -/
theorem accepted_pos {μ : Measure V} {ν : Measure N} [IsProbabilityMeasure ν] {ψ : V → ℂ} (hψ : Measurable ψ) {move : N → V → V}
    (hmv : Measurable fun p : V × N => move p.2 p.1) {k : V × V → ℝ≥0∞} (hk : Measurable k) (x : V)
    (hc : ∀ f : V → ℝ≥0∞, Measurable f → ∫⁻ y, k (x, y) * f y ∂μ ≤ ∫⁻ z, f (move z x) ∂ν) (h1 : ∃ᶠ y in ae (walkerLaw μ ψ), k (x, y) ≠ 0) :
    (ν.prod unif) (accepted ψ move x) ≠ 0 := by
  have ha : Measurable fun y => ‖ψ y‖ ^ 2 := hψ.norm.pow_const 2
  have hmz : Measurable fun z : N => move z x := hmv.comp (measurable_const.prodMk measurable_id)
  have mG : Measurable fun y => ENNReal.ofReal (‖ψ y‖ ^ 2 / max (‖ψ x‖ ^ 2) (‖ψ y‖ ^ 2)) := (ha.div (measurable_const.max ha)).ennreal_ofReal
  have hle : ∫⁻ y, k (x, y) * ENNReal.ofReal (‖ψ y‖ ^ 2 / max (‖ψ x‖ ^ 2) (‖ψ y‖ ^ 2)) ∂μ ≤ (ν.prod unif) (accepted ψ move x) := by
    refine (hc _ mG).trans ?_
    rw [Measure.prod_apply (accepted_measurable hψ hmv x)]
    refine lintegral_mono fun z => ?_
    exact accept_ge _ _ (by positivity)
  intro h0
  rw [h0] at hle
  have mk : Measurable fun y => k (x, y) := hk.comp measurable_prodMk_left
  have hz := (lintegral_eq_zero_iff (mk.mul mG)).mp (le_antisymm hle zero_le)
  refine h1 ?_
  have hden : Measurable fun x => ENNReal.ofReal (‖ψ x‖ ^ 2 / ∫ y, ‖ψ y‖ ^ 2 ∂μ) := (ha.div_const _).ennreal_ofReal
  unfold walkerLaw
  rw [ae_withDensity_iff hden]
  filter_upwards [hz] with y hy hd
  simp only [not_not]
  have hpos : 0 < ‖ψ y‖ ^ 2 := by
    by_contra hcon
    have : ‖ψ y‖ ^ 2 = 0 := le_antisymm (not_lt.mp hcon) (by positivity)
    rw [this, zero_div, ENNReal.ofReal_zero] at hd
    exact hd rfl
  have hy' : k (x, y) * ENNReal.ofReal (‖ψ y‖ ^ 2 / max (‖ψ x‖ ^ 2) (‖ψ y‖ ^ 2)) = 0 := hy
  rcases mul_eq_zero.mp hy' with h | h
  · exact h
  · exact absurd h (ENNReal.ofReal_pos.mpr (div_pos hpos (lt_max_of_lt_right hpos))).ne'

/-- The average after a chain of updates with fresh draws. -/
theorem chain_iter [Nonempty N] {P : Measure Ω} [IsProbabilityMeasure P] {ν : Measure N} [IsProbabilityMeasure ν] {noise : Key → Ω → N} {uniform : Key → Ω → ℝ}
    (hI : Independent P ν noise uniform) {ψ : V → ℂ} (hψ : Measurable ψ)
    {move : N → V → V} (hmv : Measurable fun p : V × N => move p.2 p.1) (ks : List (Key × Key)) (hd : (allKeys ks).Nodup) (x : V) {h : V → ℝ} {B : ℝ} (hh : Bdd h B) :
    ∫ ω, h (chain (fun y => ‖ψ y‖ ^ 2) move (fun k => (noise k ω, uniform k ω)) x ks) ∂P = (U (ν.prod unif) (metro ψ move))^[ks.length] h x := by
  have ha : Measurable fun y => ‖ψ y‖ ^ 2 := hψ.norm.pow_const 2
  induction ks using List.reverseRecOn generalizing h with
  | nil => simp [chain]
  | append_singleton ks k ih =>
    have hdr : Measurable fun ω => fun k => (noise k ω, uniform k ω) := measurable_pi_iff.mpr hI.measurable
    have hw := metro_measurable hψ hmv
    have hd' : (allKeys ks).Nodup := by
      unfold allKeys at hd ⊢
      rw [List.flatMap_append, List.nodup_append] at hd
      exact hd.1
    have hcm : Measurable fun ω => chain (fun y => ‖ψ y‖ ^ 2) move (fun k => (noise k ω, uniform k ω)) x ks := (chain_measurable ha hmv ks).comp (measurable_const.prodMk hdr)
    have hn : Measurable (noise k.1) := measurable_fst.comp (hI.measurable k.1)
    have hu : Measurable (uniform k.2) := measurable_snd.comp (hI.measurable k.2)
    have hhw : Measurable fun p : V × N × ℝ => h (metro ψ move p.1 p.2) := hh.meas.comp hw
    have hU : Bdd (U (ν.prod unif) (metro ψ move) h) B := by
      refine ⟨hhw.stronglyMeasurable.integral_prod_right'.measurable, fun y => ?_⟩
      have mq : Measurable fun q : N × ℝ => h (metro ψ move y q) := hhw.comp measurable_prodMk_left
      exact abs_le.mpr (average_between (ν.prod unif) mq fun q => abs_le.mp (hh.le _))
    have hmap := chain_next hI ha hmv x ks k hd
    have hp := Measure.isProbabilityMeasure_map (μ := P) hcm.aemeasurable
    have e : ∫ ω, h (chain (fun y => ‖ψ y‖ ^ 2) move (fun k => (noise k ω, uniform k ω)) x (ks ++ [k])) ∂P =
        ∫ ω, U (ν.prod unif) (metro ψ move) h (chain (fun y => ‖ψ y‖ ^ 2) move (fun k => (noise k ω, uniform k ω)) x ks) ∂P := by
      have : ∫ ω, h (chain (fun y => ‖ψ y‖ ^ 2) move (fun k => (noise k ω, uniform k ω)) x (ks ++ [k])) ∂P =
          ∫ p, h (metro ψ move p.1 p.2) ∂(P.map fun ω => (chain (fun y => ‖ψ y‖ ^ 2) move (fun k => (noise k ω, uniform k ω)) x ks, noise k.1 ω, uniform k.2 ω)) := by
        rw [integral_map (hcm.prodMk (hn.prodMk hu)).aemeasurable hhw.aestronglyMeasurable]
        exact integral_congr_ae (Filter.Eventually.of_forall fun ω => by simp only [chain_append]; rfl)
      rw [this, hmap, integral_prod _ (bounded_integrable _ hhw fun p => abs_le.mp (hh.le _))]
      exact integral_map hcm.aemeasurable hU.meas.aestronglyMeasurable
    rw [e, ih hd' hU, List.length_append, List.length_singleton, Function.iterate_succ_apply]

end Jaqmc.Average.Ergodic
