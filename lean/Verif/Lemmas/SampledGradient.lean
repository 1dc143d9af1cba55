import Verif.Lemmas.Variance
import Mathlib.Probability.Independence.InfinitePi
import Mathlib.Probability.StrongLaw
import Mathlib.MeasureTheory.Integral.Marginal
import Mathlib.MeasureTheory.Function.ConvergenceInMeasure
/-!
Lemmas for C141: all walkers of a batch together.
-/
namespace Jaqmc.Average.SampledGradient
open MeasureTheory ProbabilityTheory

set_option linter.unusedSectionVars false

variable {Ω : Type} [MeasurableSpace Ω] {P : Measure Ω} [IsProbabilityMeasure P]

/-- Things each of which is independent of any finite number of the others together are independent. -/
theorem one_by_one {ι β : Type} [MeasurableSpace β] {Y : ι → Ω → β} (h : ∀ (s : Finset ι) (w : ι), w ∉ s → IndepFun (Y w) (fun ω (j : s) => Y j ω) P) : iIndepFun Y P := by
  classical
  rw [iIndepFun_iff_measure_inter_preimage_eq_mul]
  intro S
  induction S using Finset.induction_on with
  | empty => intro sets _; simp
  | insert w s hw ih =>
    intro sets hs
    have h1 := (h s w hw).measure_inter_preimage_eq_mul (sets w) (Set.univ.pi fun j : s => sets j) (hs w (Finset.mem_insert_self _ _))
      (MeasurableSet.univ_pi fun j => hs j (Finset.mem_insert_of_mem j.2))
    have e1 : (fun ω (j : s) => Y j ω) ⁻¹' (Set.univ.pi fun j : s => sets j) = ⋂ i ∈ s, Y i ⁻¹' sets i := by
      ext ω; simp [Set.mem_pi]
    rw [e1, ih fun i hi => hs i (Finset.mem_insert_of_mem hi)] at h1
    rw [Finset.set_biInter_insert, h1, Finset.prod_insert hw]

/-- Draws of some sources, and something at all others. -/
noncomputable def fillIn {κ M : Type} (m : M) (S : Finset κ) (v : S → M) (q : κ) : M := by
  classical exact if hq : q ∈ S then v ⟨q, hq⟩ else m

theorem fillIn_measurable {κ M : Type} [MeasurableSpace M] (m : M) (S : Finset κ) : Measurable (fillIn m S) := by
  refine measurable_pi_iff.mpr fun q => ?_
  unfold fillIn
  by_cases hq : q ∈ S
  · simp only [dif_pos hq]; exact measurable_pi_apply _
  · simp only [dif_neg hq]; exact measurable_const

/-- Two things made from independent starts and from different independent draws are independent. -/
theorem made_apart {κ M V V' A B : Type} [Nonempty M] [MeasurableSpace M] [MeasurableSpace V] [MeasurableSpace V'] [MeasurableSpace A] [MeasurableSpace B] {F : κ → Ω → M}
    (hF : ∀ q, Measurable (F q)) (hI : iIndepFun F P) {X : Ω → V} {X' : Ω → V'} (mX : Measurable X) (mX' : Measurable X') (i1 : IndepFun X X' P)
    (i3 : IndepFun (fun ω => (X ω, X' ω)) (fun ω q => F q ω) P) {S S' : Finset κ} (hd : Disjoint S S') {f : V → (κ → M) → A} {f' : V' → (κ → M) → B}
    (hf : Measurable fun p : V × (κ → M) => f p.1 p.2) (hf' : Measurable fun p : V' × (κ → M) => f' p.1 p.2) (dep : ∀ x d d', (∀ k ∈ S, d k = d' k) → f x d = f x d')
    (dep' : ∀ x d d', (∀ k ∈ S', d k = d' k) → f' x d = f' x d') :
    IndepFun (fun ω => f (X ω) fun k => F k ω) (fun ω => f' (X' ω) fun k => F k ω) P := by
  obtain ⟨m⟩ : Nonempty M := inferInstance
  have i2 := hI.indepFun_finset S S' hd hF
  have mD : Measurable fun ω => fun q : S => F q ω := measurable_pi_iff.mpr fun q => hF q.1
  have mD' : Measurable fun ω => fun q : S' => F q ω := measurable_pi_iff.mpr fun q => hF q.1
  have i4 : IndepFun (fun ω => (X ω, X' ω)) (fun ω => ((fun q : S => F q ω), fun q : S' => F q ω)) P := by
    have hq : Measurable fun y : κ → M => ((fun q : S => y q.1), fun q : S' => y q.1) := by
      have h1 : Measurable fun y : κ → M => fun q : S => y q.1 := measurable_pi_iff.mpr fun q => measurable_pi_apply q.1
      have h2 : Measurable fun y : κ → M => fun q : S' => y q.1 := measurable_pi_iff.mpr fun q => measurable_pi_apply q.1
      exact h1.prodMk h2
    exact i3.comp measurable_id hq
  have i5 := Variance.cross mX mX' mD mD' i1 i2 i4
  have g1 : Measurable fun p : V × (S → M) => f p.1 (fillIn m S p.2) := by
    have h := hf.comp (measurable_fst.prodMk ((fillIn_measurable m S).comp measurable_snd) : Measurable fun p : V × (S → M) => (p.1, fillIn m S p.2))
    exact h
  have g2 : Measurable fun p : V' × (S' → M) => f' p.1 (fillIn m S' p.2) := by
    have h := hf'.comp (measurable_fst.prodMk ((fillIn_measurable m S').comp measurable_snd) : Measurable fun p : V' × (S' → M) => (p.1, fillIn m S' p.2))
    exact h
  have hc := i5.comp g1 g2
  refine hc.congr (Filter.Eventually.of_forall fun ω => ?_) (Filter.Eventually.of_forall fun ω => ?_)
  · refine dep _ _ _ fun k hk => ?_
    simp only [fillIn, dif_pos hk]
  · refine dep' _ _ _ fun k hk => ?_
    simp only [fillIn, dif_pos hk]

/-- Things made each from its own start and its own draws are independent, all together. -/
theorem all_apart {κ M V W B : Type} [Nonempty M] [MeasurableSpace M] [MeasurableSpace V] [MeasurableSpace B] {F : κ → Ω → M}
    (hF : ∀ q, Measurable (F q)) (hI : iIndepFun F P) {X : W → Ω → V} (mX : ∀ w, Measurable (X w)) (i1 : iIndepFun X P)
    (i3 : IndepFun (fun ω w => X w ω) (fun ω q => F q ω) P) {S : W → Finset κ} (hd : ∀ w w', w ≠ w' → Disjoint (S w) (S w')) {f : W → V → (κ → M) → B}
    (hf : ∀ w, Measurable fun p : V × (κ → M) => f w p.1 p.2) (dep : ∀ w x d d', (∀ k ∈ S w, d k = d' k) → f w x d = f w x d') :
    iIndepFun (fun w ω => f w (X w ω) fun k => F k ω) P := by
  classical
  refine one_by_one fun s w hw => ?_
  have hp : IndepFun (X w) (fun ω (j : s) => X j ω) P := by
    have h := i1.indepFun_finset {w} s (by simpa using hw) mX
    have h' := h.comp (measurable_pi_apply (⟨w, Finset.mem_singleton_self w⟩ : ({w} : Finset W))) measurable_id
    exact h'
  have h3 : IndepFun (fun ω => (X w ω, fun j : s => X j ω)) (fun ω q => F q ω) P := by
    have hm : Measurable fun x : W → V => (x w, fun j : s => x j) := (measurable_pi_apply w).prodMk (measurable_pi_iff.mpr fun j => measurable_pi_apply _)
    exact i3.comp hm measurable_id
  have mf' : Measurable fun p : (s → V) × (κ → M) => fun j : s => f j (p.1 j) p.2 := by
    refine measurable_pi_iff.mpr fun j => ?_
    have h := (hf j).comp (((measurable_pi_apply j).comp measurable_fst).prodMk measurable_snd : Measurable fun p : (s → V) × (κ → M) => (p.1 j, p.2))
    exact h
  have h := made_apart hF hI (mX w) (measurable_pi_iff.mpr fun j : s => mX j) hp h3 (S := S w) (S' := s.biUnion S)
    (by rw [Finset.disjoint_biUnion_right]; intro j hj; exact hd _ _ fun h => hw (h ▸ hj))
    (f := f w) (f' := fun (x : s → V) d (j : s) => f j (x j) d) (hf w) mf' (dep w)
    (fun x d d' h => funext fun j => dep _ _ _ _ fun k hk => h k (Finset.mem_biUnion.mpr ⟨j, j.2, hk⟩))
  exact h

/-! ### Batches of nearly the right law -/

open scoped ENNReal

/-- If each of finitely many laws is near another one, so are the laws of independent samples: one half. -/
theorem products_le {ι X : Type} [Fintype ι] [MeasurableSpace X] {ρ π : ι → Measure X} [∀ i, IsProbabilityMeasure (ρ i)] [∀ i, IsProbabilityMeasure (π i)] {δ : ℝ≥0∞}
    (h : ∀ i (f : X → ℝ≥0∞), Measurable f → (∀ x, f x ≤ 1) → ∫⁻ x, f x ∂ρ i ≤ ∫⁻ x, f x ∂π i + δ) {F : (ι → X) → ℝ≥0∞} (hF : Measurable F) (h1 : ∀ x, F x ≤ 1) :
    ∫⁻ x, F x ∂Measure.pi ρ ≤ ∫⁻ x, F x ∂Measure.pi π + Fintype.card ι * δ := by
  classical
  have key : ∀ s : Finset ι, ∀ x : ι → X, (∫⋯∫⁻_s, F ∂ρ) x ≤ (∫⋯∫⁻_s, F ∂π) x + s.card * δ ∧ (∫⋯∫⁻_s, F ∂π) x ≤ 1 := by
    intro s
    induction s using Finset.induction_on with
    | empty => intro x; simpa using h1 x
    | insert i s hi ih =>
      intro x
      have hm : Measurable fun y => (∫⋯∫⁻_s, F ∂π) (Function.update x i y) := (hF.lmarginal π).comp (measurable_update x)
      rw [lmarginal_insert F hF hi, lmarginal_insert F hF hi]
      constructor
      · calc ∫⁻ y, (∫⋯∫⁻_s, F ∂ρ) (Function.update x i y) ∂ρ i ≤ ∫⁻ y, ((∫⋯∫⁻_s, F ∂π) (Function.update x i y) + s.card * δ) ∂ρ i :=
              lintegral_mono fun y => (ih _).1
          _ = (∫⁻ y, (∫⋯∫⁻_s, F ∂π) (Function.update x i y) ∂ρ i) + s.card * δ := by
              rw [lintegral_add_left hm, lintegral_const, measure_univ, mul_one]
          _ ≤ (∫⁻ y, (∫⋯∫⁻_s, F ∂π) (Function.update x i y) ∂π i) + δ + s.card * δ := by
              gcongr
              exact h i _ hm fun y => (ih _).2
          _ = _ := by
              rw [Finset.card_insert_of_notMem hi]
              push_cast
              ring
      · calc ∫⁻ y, (∫⋯∫⁻_s, F ∂π) (Function.update x i y) ∂π i ≤ ∫⁻ _, 1 ∂π i := lintegral_mono fun y => (ih _).2
          _ = 1 := by simp
  by_cases hX : Nonempty (ι → X)
  · obtain ⟨x⟩ := hX
    have := (key Finset.univ x).1
    rw [lmarginal_univ, lmarginal_univ] at this
    simpa using this
  · have : IsEmpty (ι → X) := not_nonempty_iff.mp hX
    simp [Measure.eq_zero_of_isEmpty]

/-- If each of finitely many laws is near another one, so are the laws of independent samples. -/
theorem products_near {ι X : Type} [Fintype ι] [MeasurableSpace X] {ρ π : ι → Measure X} [∀ i, IsProbabilityMeasure (ρ i)] [∀ i, IsProbabilityMeasure (π i)] {δ : ℝ} (hδ : 0 ≤ δ)
    (h : ∀ i (f : X → ℝ), Measurable f → (∀ x, |f x| ≤ 1) → |∫ x, f x ∂ρ i - ∫ x, f x ∂π i| ≤ δ) {F : (ι → X) → ℝ} (hF : Measurable F) (h0 : ∀ x, 0 ≤ F x) (h1 : ∀ x, F x ≤ 1) :
    |∫ x, F x ∂Measure.pi ρ - ∫ x, F x ∂Measure.pi π| ≤ Fintype.card ι * δ := by
  have hlin : ∀ i (f : X → ℝ≥0∞), Measurable f → (∀ x, f x ≤ 1) → ∫⁻ x, f x ∂ρ i ≤ ∫⁻ x, f x ∂π i + ENNReal.ofReal δ ∧ ∫⁻ x, f x ∂π i ≤ ∫⁻ x, f x ∂ρ i + ENNReal.ofReal δ := by
    intro i f hf hf1
    have hft : ∀ x, f x ≠ ⊤ := fun x => ((hf1 x).trans_lt ENNReal.one_lt_top).ne
    have hr : ∀ x, |(f x).toReal| ≤ 1 := fun x => by
      rw [abs_of_nonneg ENNReal.toReal_nonneg]
      exact ENNReal.toReal_le_of_le_ofReal zero_le_one (by simpa using hf1 x)
    have hh := abs_le.mp (h i (fun x => (f x).toReal) hf.ennreal_toReal hr)
    have conv : ∀ (m : Measure X) [IsProbabilityMeasure m], ∫⁻ x, f x ∂m = ENNReal.ofReal (∫ x, (f x).toReal ∂m) := by
      intro m _
      rw [integral_toReal hf.aemeasurable (Filter.Eventually.of_forall fun x => (hft x).lt_top), ENNReal.ofReal_toReal]
      have : ∫⁻ x, f x ∂m ≤ 1 := (lintegral_mono hf1).trans (by simp)
      exact (this.trans_lt ENNReal.one_lt_top).ne
    have nn : ∀ m : Measure X, 0 ≤ ∫ x, (f x).toReal ∂m := fun m => integral_nonneg fun x => ENNReal.toReal_nonneg
    rw [conv (ρ i), conv (π i), ← ENNReal.ofReal_add (nn _) hδ, ← ENNReal.ofReal_add (nn _) hδ]
    exact ⟨ENNReal.ofReal_le_ofReal (by linarith [hh.2]), ENNReal.ofReal_le_ofReal (by linarith [hh.1])⟩
  have hFm : Measurable fun x => ENNReal.ofReal (F x) := hF.ennreal_ofReal
  have hF1 : ∀ x, ENNReal.ofReal (F x) ≤ 1 := fun x => by simpa using h1 x
  have a1 := products_le (fun i f hf hf1 => (hlin i f hf hf1).1) hFm hF1
  have a2 := products_le (fun i f hf hf1 => (hlin i f hf hf1).2) hFm hF1
  have hi : ∀ m : Measure (ι → X), IsProbabilityMeasure m → Integrable F m := fun m _ =>
    Integrable.of_bound hF.aestronglyMeasurable 1 (Filter.Eventually.of_forall fun x => by rw [Real.norm_eq_abs, abs_of_nonneg (h0 x)]; exact h1 x)
  have hc : ((Fintype.card ι : ℕ) : ℝ≥0∞) * ENNReal.ofReal δ = ENNReal.ofReal (Fintype.card ι * δ) := by
    rw [ENNReal.ofReal_mul (by positivity), ENNReal.ofReal_natCast]
  have nn : ∀ m : Measure (ι → X), 0 ≤ ∫ x, F x ∂m := fun m => integral_nonneg h0
  have hcd : 0 ≤ (Fintype.card ι : ℝ) * δ := by positivity
  rw [← ofReal_integral_eq_lintegral_ofReal (hi _ inferInstance) (Filter.Eventually.of_forall h0), ← ofReal_integral_eq_lintegral_ofReal (hi _ inferInstance) (Filter.Eventually.of_forall h0),
    hc, ← ENNReal.ofReal_add (nn _) hcd, ENNReal.ofReal_le_ofReal_iff (add_nonneg (nn _) hcd)] at a1 a2
  rw [abs_le]
  constructor <;> linarith

/-! ### Large batches -/

/-- The weak law of large numbers, for independent samples indexed by any finite set with enough elements. -/
theorem weak_law {X : Type} [MeasurableSpace X] {ρ : Measure X} [IsProbabilityMeasure ρ] {h : X → ℂ} (hi : Integrable h ρ) {ε : ℝ} (hε : 0 < ε) {η : ℝ≥0∞} (hη : 0 < η) :
    ∃ N₀ : ℕ, ∀ (ι : Type) [Fintype ι], N₀ ≤ Fintype.card ι →
      (Measure.pi fun _ : ι => ρ) {x | ε ≤ ‖(∑ i, h (x i)) / (Fintype.card ι : ℂ) - ∫ y, h y ∂ρ‖} ≤ η := by
  set Q : Measure (ℕ → X) := Measure.infinitePi fun _ => ρ with hQ
  have hev : ∀ i, MeasurePreserving (fun x : ℕ → X => x i) Q ρ := fun i => measurePreserving_eval_infinitePi (fun _ => ρ) i
  have hI : iIndepFun (fun (i : ℕ) (x : ℕ → X) => x i) Q := iIndepFun_infinitePi (X := fun _ x => x) fun _ => measurable_id
  have hint : Integrable (fun x : ℕ → X => h (x 0)) Q := (hev 0).integrable_comp_of_integrable hi
  have hlaw := strong_law_ae (μ := Q) (fun i x => h (x i)) hint
    (fun i j hij => (hI.indepFun hij).comp₀ (φ := h) (ψ := h) (hev i).aemeasurable (hev j).aemeasurable
      (by rw [(hev i).map_eq]; exact hi.aestronglyMeasurable.aemeasurable) (by rw [(hev j).map_eq]; exact hi.aestronglyMeasurable.aemeasurable))
    (fun i => ⟨((hev i).integrable_comp_of_integrable hi).aestronglyMeasurable.aemeasurable, hint.aestronglyMeasurable.aemeasurable, by
      have m : ∀ i, Measure.map (fun x : ℕ → X => h (x i)) Q = Measure.map h ρ := fun i => by
        have := AEMeasurable.map_map_of_aemeasurable (μ := Q) (g := h) (f := fun x : ℕ → X => x i) (by rw [(hev i).map_eq]; exact hi.aestronglyMeasurable.aemeasurable) (hev i).aemeasurable
        rw [(hev i).map_eq] at this
        exact this.symm
      rw [m, m]⟩)
  have hmean : ∫ x : ℕ → X, h (x 0) ∂Q = ∫ y, h y ∂ρ := by
    have := integral_map (μ := Q) (hev 0).aemeasurable (f := h) (by rw [(hev 0).map_eq]; exact hi.aestronglyMeasurable)
    rw [← this, (hev 0).map_eq]
  rw [hmean] at hlaw
  have hm : ∀ m : ℕ, AEStronglyMeasurable (fun x : ℕ → X => (m : ℝ)⁻¹ • ∑ i ∈ Finset.range m, h (x i)) Q := by
    intro m
    have h1 : Integrable (fun x : ℕ → X => ∑ i ∈ Finset.range m, h (x i)) Q := integrable_finsetSum _ fun i _ => (hev i).integrable_comp_of_integrable hi
    have h2 := h1.smul (m : ℝ)⁻¹
    exact h2.aestronglyMeasurable
  have ht := tendstoInMeasure_of_tendsto_ae hm hlaw
  have ht' := (tendstoInMeasure_iff_norm.mp ht) ε hε
  obtain ⟨N₀, hN⟩ := Filter.eventually_atTop.mp (ht'.eventually_le_const hη)
  refine ⟨N₀, fun ι _ hc => ?_⟩
  have hmap : Q.map (fun (x : ℕ → X) (i : ι) => x (Fintype.equivFin ι i)) = Measure.pi fun _ => ρ := by
    have h1 : iIndepFun (fun (i : ι) (x : ℕ → X) => x (Fintype.equivFin ι i)) Q :=
      hI.precomp (g := fun i : ι => (Fintype.equivFin ι i : ℕ)) fun i j hij => (Fintype.equivFin ι).injective (Fin.ext hij)
    rw [iIndepFun_iff_map_fun_eq_pi_map fun i => (hev _).aemeasurable] at h1
    rw [h1]
    exact congrArg Measure.pi (funext fun i => (hev _).map_eq)
  refine le_trans (le_of_eq ?_) (hN _ hc)
  have hmp : MeasurePreserving (fun (x : ℕ → X) (i : ι) => x (Fintype.equivFin ι i)) Q (Measure.pi fun _ => ρ) := ⟨measurable_pi_iff.mpr fun i => measurable_pi_apply _, hmap⟩
  have hset : NullMeasurableSet {x : ι → X | ε ≤ ‖(∑ i, h (x i)) / (Fintype.card ι : ℂ) - ∫ y, h y ∂ρ‖} (Measure.pi fun _ => ρ) := by
    have : AEMeasurable (fun x : ι → X => ‖(∑ i, h (x i)) / (Fintype.card ι : ℂ) - ∫ y, h y ∂ρ‖) (Measure.pi fun _ => ρ) := by
      refine (((integrable_finsetSum _ fun i _ => ?_).div_const _).aestronglyMeasurable.aemeasurable.sub_const _).norm
      exact (measurePreserving_eval (fun _ : ι => ρ) i).integrable_comp_of_integrable hi
    exact nullMeasurableSet_le aemeasurable_const this
  rw [← hmp.measure_preimage hset]
  refine congrArg Q (Set.ext fun x => ?_)
  have hs : ∑ i : ι, h (x (Fintype.equivFin ι i)) = ∑ i ∈ Finset.range (Fintype.card ι), h (x i) := by
    rw [Finset.sum_range, ← (Fintype.equivFin ι).sum_comp]
  show ε ≤ ‖(∑ i : ι, h (x (Fintype.equivFin ι i))) / (Fintype.card ι : ℂ) - ∫ y, h y ∂ρ‖ ↔ _
  rw [hs, Set.mem_ofPred_eq, Complex.real_smul, div_eq_inv_mul]
  push_cast
  rfl

end Jaqmc.Average.SampledGradient
