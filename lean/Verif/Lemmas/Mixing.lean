import Verif.Lemmas.Average
import Mathlib.MeasureTheory.Integral.Prod
import Mathlib.MeasureTheory.Integral.Bochner.Basic
/-!
An update that can go anywhere forgets where it started (C137).
-/
namespace Jaqmc.Average
open MeasureTheory ProbabilityTheory Jaqmc.Average.Spec Jaqmc.LossGrad.Spec
open scoped ENNReal

variable {V N Ω Key : Type} [MeasurableSpace V] [MeasurableSpace N] [MeasurableSpace Ω]

theorem bounded_integrable {X : Type} [MeasurableSpace X] (κ : Measure X) [IsFiniteMeasure κ] {h : X → ℝ} (hh : Measurable h) {m M : ℝ} (hb : ∀ x, m ≤ h x ∧ h x ≤ M) :
    Integrable h κ := by
  refine Integrable.of_bound hh.aestronglyMeasurable (max |m| |M|) (Filter.Eventually.of_forall fun x => ?_)
  rw [Real.norm_eq_abs]
  exact abs_le_max_abs_abs (hb x).1 (hb x).2

theorem average_between {X : Type} [MeasurableSpace X] (κ : Measure X) [IsProbabilityMeasure κ] {h : X → ℝ} (hh : Measurable h) {m M : ℝ} (hb : ∀ x, m ≤ h x ∧ h x ≤ M) :
    m ≤ ∫ x, h x ∂κ ∧ ∫ x, h x ∂κ ≤ M := by
  have hi := bounded_integrable κ hh hb
  constructor
  · have := integral_mono (integrable_const m) hi fun x => (hb x).1
    simpa using this
  · have := integral_mono hi (integrable_const M) fun x => (hb x).2
    simpa using this

/-- A measure that contains a part of another one. -/
theorem average_covers {X Y : Type} [MeasurableSpace X] [MeasurableSpace Y] (κ : Measure Y) [IsProbabilityMeasure κ] (π : Measure X) [IsProbabilityMeasure π] (f : Y → X)
    (hf : Measurable f) {ε : ℝ} (h0 : 0 ≤ ε)
    (hc : ∀ g : X → ℝ≥0∞, Measurable g → ENNReal.ofReal ε * ∫⁻ x, g x ∂π ≤ ∫⁻ y, g (f y) ∂κ) {h : X → ℝ} (hh : Measurable h) {m M : ℝ} (hb : ∀ x, m ≤ h x ∧ h x ≤ M) :
    m + ε * (∫ x, h x ∂π - m) ≤ ∫ y, h (f y) ∂κ ∧ ∫ y, h (f y) ∂κ ≤ M - ε * (M - ∫ x, h x ∂π) := by
  have pos : ∀ g : X → ℝ, Measurable g → (∀ x, 0 ≤ g x) → (∃ B, ∀ x, g x ≤ B) → ε * ∫ x, g x ∂π ≤ ∫ y, g (f y) ∂κ := by
    rintro g hg g0 ⟨B, hB⟩
    have i1 : Integrable g π := bounded_integrable π hg fun x => ⟨g0 x, hB x⟩
    have i2 : Integrable (fun y => g (f y)) κ := bounded_integrable κ (hg.comp hf) fun y => ⟨g0 _, hB _⟩
    have := hc (fun x => ENNReal.ofReal (g x)) hg.ennreal_ofReal
    rw [← ofReal_integral_eq_lintegral_ofReal i1 (Filter.Eventually.of_forall g0), ← ofReal_integral_eq_lintegral_ofReal i2 (Filter.Eventually.of_forall fun y => g0 _),
      ← ENNReal.ofReal_mul h0] at this
    exact (ENNReal.ofReal_le_ofReal_iff (integral_nonneg fun y => g0 _)).mp this
  have ih := bounded_integrable π hh hb
  have ihf : Integrable (fun y => h (f y)) κ := bounded_integrable κ (hh.comp hf) fun y => hb _
  have p1 := pos (fun x => h x - m) (hh.sub_const m) (fun x => by linarith [(hb x).1]) ⟨M - m, fun x => by linarith [(hb x).2]⟩
  have p2 := pos (fun x => M - h x) (hh.const_sub M) (fun x => by linarith [(hb x).2]) ⟨M - m, fun x => by linarith [(hb x).1]⟩
  rw [integral_sub ih (integrable_const m), integral_sub ihf (integrable_const m)] at p1
  rw [integral_sub (integrable_const M) ih, integral_sub (integrable_const M) ihf] at p2
  simp only [integral_const, probReal_univ, smul_eq_mul, one_mul] at p1 p2
  constructor <;> linarith

variable {P : Measure Ω} [IsProbabilityMeasure P] {ν : Measure N} {noise : Key → Ω → N} {uniform : Key → Ω → ℝ}

/-- Averages after a chain of updates approach those of the distribution, at a rate that depends neither on the start nor on what is averaged. -/
theorem chain_mixes [Nonempty N] [IsProbabilityMeasure ν] (hI : Independent P ν noise uniform) {π : Measure V} [IsProbabilityMeasure π] {a : V → ℝ} (ha : Measurable a)
    {move : N → V → V} (hmv : Measurable fun p : V × N => move p.2 p.1) {ε : ℝ} (h0 : 0 ≤ ε) (h1 : ε ≤ 1)
    (hc : ∀ x, ∀ g : V → ℝ≥0∞, Measurable g → ENNReal.ofReal ε * ∫⁻ x, g x ∂π ≤ ∫⁻ q, g (wstep a move x q.1 q.2) ∂(ν.prod unif))
    (hs : ∀ g : V → ℝ≥0∞, Measurable g → ∫⁻ x, ∫⁻ q, g (wstep a move x q.1 q.2) ∂(ν.prod unif) ∂π = ∫⁻ x, g x ∂π)
    (ks : List (Key × Key)) (hd : (allKeys ks).Nodup) (x : V) {h : V → ℝ} (hh : Measurable h) {m M : ℝ} (hb : ∀ x, m ≤ h x ∧ h x ≤ M) :
    |∫ ω, h (chain a move (fun k => (noise k ω, uniform k ω)) x ks) ∂P - ∫ x, h x ∂π| ≤ (1 - ε) ^ ks.length * (M - m) := by
  induction ks using List.reverseRecOn generalizing h m M with
  | nil =>
    have := average_between π hh hb
    have h2 : ∫ ω, h (chain a move (fun k => (noise k ω, uniform k ω)) x []) ∂P = h x := by simp [chain]
    rw [h2, List.length_nil, pow_zero, one_mul, abs_le]
    have := hb x
    constructor <;> linarith
  | append_singleton ks k ih =>
    have hdr : Measurable fun ω => fun k => (noise k ω, uniform k ω) := measurable_pi_iff.mpr hI.measurable
    have hw := wstep_measurable ha hmv
    have hd' : (allKeys ks).Nodup := by
      unfold allKeys at hd ⊢
      rw [List.flatMap_append, List.nodup_append] at hd
      exact hd.1
    have hcm : Measurable fun ω => chain a move (fun k => (noise k ω, uniform k ω)) x ks := (chain_measurable ha hmv ks).comp (measurable_const.prodMk hdr)
    have hn : Measurable (noise k.1) := measurable_fst.comp (hI.measurable k.1)
    have hu : Measurable (uniform k.2) := measurable_snd.comp (hI.measurable k.2)
    have hhw : Measurable fun p : V × N × ℝ => h (wstep a move p.1 p.2.1 p.2.2) := hh.comp hw
    have hU : Measurable fun y : V => ∫ q, h (wstep a move y q.1 q.2) ∂(ν.prod unif) := by
      have : StronglyMeasurable fun p : V × N × ℝ => h (wstep a move p.1 p.2.1 p.2.2) := hhw.stronglyMeasurable
      exact this.integral_prod_right'.measurable
    have hmap := chain_next hI ha hmv x ks k hd
    have hp := Measure.isProbabilityMeasure_map (μ := P) hcm.aemeasurable
    have e : ∫ ω, h (chain a move (fun k => (noise k ω, uniform k ω)) x (ks ++ [k])) ∂P =
        ∫ ω, (fun y => ∫ q, h (wstep a move y q.1 q.2) ∂(ν.prod unif)) (chain a move (fun k => (noise k ω, uniform k ω)) x ks) ∂P := by
      have : ∫ ω, h (chain a move (fun k => (noise k ω, uniform k ω)) x (ks ++ [k])) ∂P =
          ∫ p, h (wstep a move p.1 p.2.1 p.2.2) ∂(P.map fun ω => (chain a move (fun k => (noise k ω, uniform k ω)) x ks, noise k.1 ω, uniform k.2 ω)) := by
        rw [integral_map (hcm.prodMk (hn.prodMk hu)).aemeasurable hhw.aestronglyMeasurable]
        exact integral_congr_ae (Filter.Eventually.of_forall fun ω => by simp only [chain_append])
      rw [this, hmap, integral_prod _ (bounded_integrable _ hhw fun p => hb _), integral_map hcm.aemeasurable hU.aestronglyMeasurable]
    have hsh : ∫ y, ∫ q, h (wstep a move y q.1 q.2) ∂(ν.prod unif) ∂π = ∫ y, h y ∂π := by
      have hm : (π.prod (ν.prod unif)).map (fun p => wstep a move p.1 p.2.1 p.2.2) = π := by
        refine Measure.ext_of_lintegral _ fun g hg => ?_
        have hgw : Measurable fun p : V × N × ℝ => g (wstep a move p.1 p.2.1 p.2.2) := hg.comp hw
        rw [lintegral_map hg hw, lintegral_prod _ hgw.aemeasurable, hs g hg]
      conv_rhs => rw [← hm]
      rw [integral_map hw.aemeasurable hh.aestronglyMeasurable, integral_prod _ (bounded_integrable _ hhw fun p => hb _)]
    have hbd : ∀ y, m + ε * (∫ x, h x ∂π - m) ≤ ∫ q, h (wstep a move y q.1 q.2) ∂(ν.prod unif) ∧
        ∫ q, h (wstep a move y q.1 q.2) ∂(ν.prod unif) ≤ M - ε * (M - ∫ x, h x ∂π) := fun y =>
      average_covers (ν.prod unif) π (fun q => wstep a move y q.1 q.2) (hw.comp measurable_prodMk_left) h0 (hc y) hh hb
    have := ih hd' hU hbd
    rw [e, ← hsh]
    refine this.trans (le_of_eq ?_)
    rw [List.length_append, List.length_singleton, pow_succ]
    ring

/-! ### Where one update can go -/

/-- One update with bounded amplitudes goes everywhere the wavefunction is, if the proposal goes everywhere. -/
theorem update_covers {μ : Measure V} [IsProbabilityMeasure ν] {a : V → ℝ} (ha : Measurable a) (h0 : ∀ x, 0 ≤ a x) {A : ℝ} (hA : 0 < A) (hb : ∀ x, a x ≤ A)
    {move : N → V → V} (hmv : Measurable fun p : V × N => move p.2 p.1) {c : ℝ≥0∞} (x : V)
    (hc : ∀ g : V → ℝ≥0∞, Measurable g → c * ∫⁻ y, g y ∂μ ≤ ∫⁻ z, g (move z x) ∂ν) (g : V → ℝ≥0∞) (hg : Measurable g) :
    c * ∫⁻ y, ENNReal.ofReal (a y / A) * g y ∂μ ≤ ∫⁻ q, g (wstep a move x q.1 q.2) ∂(ν.prod unif) := by
  have hgw : Measurable fun q : N × ℝ => g (wstep a move x q.1 q.2) := (hg.comp (wstep_measurable ha hmv)).comp measurable_prodMk_left
  rw [lintegral_prod _ hgw.aemeasurable]
  refine (hc (fun y => ENNReal.ofReal (a y / A) * g y) ((ha.div_const A).ennreal_ofReal.mul hg)).trans (lintegral_mono fun z => ?_)
  have : ∀ u, g (wstep a move x z u) = if u * a x < a (move z x) then g (move z x) else g x := by
    intro u; unfold wstep; split <;> rfl
  simp_rw [this]
  rw [u_integral]
  refine le_trans ?_ le_self_add
  refine mul_le_mul_left ?_ _
  have hm : unif (Set.Iio (a (move z x) / A)) ≤ unif {u | u * a x < a (move z x)} ∨ a (move z x) = 0 := by
    by_cases hz : a (move z x) = 0
    · exact Or.inr hz
    · left
      have hp : 0 < a (move z x) := lt_of_le_of_ne (h0 _) (Ne.symm hz)
      have : unif (Set.Iio (a (move z x) / A)) = unif (Set.Iio (a (move z x) / A) ∩ Set.Ico 0 1) := by
        rw [unif, Measure.restrict_apply measurableSet_Iio, Measure.restrict_apply (measurableSet_Iio.inter measurableSet_Ico), Set.inter_assoc, Set.inter_self]
      rw [this]
      refine measure_mono fun u hu => ?_
      have h1 : u < a (move z x) / A := hu.1
      have h2 : 0 ≤ u := hu.2.1
      show u * a x < a (move z x)
      rw [lt_div_iff₀ hA] at h1
      exact lt_of_le_of_lt (mul_le_mul_of_nonneg_left (hb x) h2) h1
  rcases hm with hm | hm
  · refine le_trans (le_of_eq ?_) hm
    have e2 : Set.Iio (a (move z x) / A) ∩ Set.Ico 0 1 = Set.Ico 0 (a (move z x) / A) := by
      have : a (move z x) / A ≤ 1 := (div_le_one hA).mpr (hb _)
      ext u; simp only [Set.mem_inter_iff, Set.mem_Iio, Set.mem_Ico]
      constructor
      · rintro ⟨p, q, r⟩; exact ⟨q, p⟩
      · rintro ⟨p, q⟩; exact ⟨q, p, by linarith⟩
    rw [unif, Measure.restrict_apply measurableSet_Iio, e2, Real.volume_Ico, sub_zero]
  · rw [hm, zero_div, ENNReal.ofReal_zero]
    exact zero_le

/-- Proposals that go everywhere in each coordinate go everywhere. -/
theorem pi_covers {X : Type} [MeasurableSpace X] {μ : Measure X} [SigmaFinite μ] {c : ℝ≥0∞} {n : ℕ} (κ : Fin n → Measure X) [∀ i, SigmaFinite (κ i)]
    (h : ∀ i, ∀ g : X → ℝ≥0∞, Measurable g → c * ∫⁻ x, g x ∂μ ≤ ∫⁻ x, g x ∂κ i) (g : (Fin n → X) → ℝ≥0∞) (hg : Measurable g) :
    c ^ n * ∫⁻ x, g x ∂(Measure.pi fun _ : Fin n => μ) ≤ ∫⁻ x, g x ∂(Measure.pi κ) := by
  induction n with
  | zero =>
    rw [pow_zero, one_mul, Measure.pi_of_empty, Measure.pi_of_empty]
  | succ n ih =>
    have e1 := (measurePreserving_piFinSuccAbove κ 0).symm
    have e2 := (measurePreserving_piFinSuccAbove (fun _ : Fin (n + 1) => μ) 0).symm
    have hs := (MeasurableEquiv.piFinSuccAbove (fun _ : Fin (n + 1) => X) 0).symm.measurable
    have hg' : Measurable fun p : X × (Fin n → X) => g ((MeasurableEquiv.piFinSuccAbove (fun _ : Fin (n + 1) => X) 0).symm p) := hg.comp hs
    rw [← e1.lintegral_comp hg, ← e2.lintegral_comp hg, lintegral_prod _ hg'.aemeasurable, lintegral_prod _ hg'.aemeasurable]
    have m1 : Measurable fun x => ∫⁻ y, g ((MeasurableEquiv.piFinSuccAbove (fun _ : Fin (n + 1) => X) 0).symm (x, y)) ∂(Measure.pi fun _ : Fin n => μ) :=
      hg'.lintegral_prod_right'
    calc c ^ (n + 1) * ∫⁻ x, ∫⁻ y, g ((MeasurableEquiv.piFinSuccAbove (fun _ : Fin (n + 1) => X) 0).symm (x, y)) ∂(Measure.pi fun _ : Fin n => μ) ∂μ
        = c * ∫⁻ x, c ^ n * ∫⁻ y, g ((MeasurableEquiv.piFinSuccAbove (fun _ : Fin (n + 1) => X) 0).symm (x, y)) ∂(Measure.pi fun _ : Fin n => μ) ∂μ := by
          rw [lintegral_const_mul _ m1, ← mul_assoc, pow_succ']
      _ ≤ ∫⁻ x, c ^ n * ∫⁻ y, g ((MeasurableEquiv.piFinSuccAbove (fun _ : Fin (n + 1) => X) 0).symm (x, y)) ∂(Measure.pi fun _ : Fin n => μ) ∂(κ 0) :=
          h 0 _ (m1.const_mul _)
      _ ≤ _ := by
          refine lintegral_mono fun x => ?_
          exact ih (fun i => κ (Fin.succAbove 0 i)) (fun i => h _) (fun y => g ((MeasurableEquiv.piFinSuccAbove (fun _ : Fin (n + 1) => X) 0).symm (x, y)))
            (hg'.comp measurable_prodMk_left)

end Jaqmc.Average
