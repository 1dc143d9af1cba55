import Verif.Spec.Variance
import Verif.Model.Variance
import Mathlib.Algebra.Order.Chebyshev
import Mathlib.Probability.Independence.Integration
/-!
Lemmas for C140: sample variances.
-/
namespace Jaqmc.Average.Variance
open MeasureTheory ProbabilityTheory

set_option linter.unusedSectionVars false

variable {Ω : Type} [MeasurableSpace Ω] {P : Measure Ω} [IsProbabilityMeasure P]

/-- Two pairs of independent things, the pairs independent of each other, paired up the other way. -/
theorem cross {A B C D : Type} [MeasurableSpace A] [MeasurableSpace B] [MeasurableSpace C] [MeasurableSpace D] {X : Ω → A} {Y : Ω → B} {Z : Ω → C} {W : Ω → D}
    (mX : Measurable X) (mY : Measurable Y) (mZ : Measurable Z) (mW : Measurable W) (h1 : IndepFun X Y P) (h2 : IndepFun Z W P)
    (h : IndepFun (fun ω => (X ω, Y ω)) (fun ω => (Z ω, W ω)) P) : IndepFun (fun ω => (X ω, Z ω)) (fun ω => (Y ω, W ω)) P := by
  have hXZ : IndepFun X Z P := h.comp measurable_fst measurable_fst
  have hYW : IndepFun Y W P := h.comp measurable_snd measurable_snd
  have pX := Measure.isProbabilityMeasure_map (μ := P) mX.aemeasurable
  have pY := Measure.isProbabilityMeasure_map (μ := P) mY.aemeasurable
  have pZ := Measure.isProbabilityMeasure_map (μ := P) mZ.aemeasurable
  have pW := Measure.isProbabilityMeasure_map (μ := P) mW.aemeasurable
  rw [indepFun_iff_map_prod_eq_prod_map_map (mX.prodMk mZ).aemeasurable (mY.prodMk mW).aemeasurable]
  rw [indepFun_iff_map_prod_eq_prod_map_map mX.aemeasurable mZ.aemeasurable] at hXZ
  rw [indepFun_iff_map_prod_eq_prod_map_map mY.aemeasurable mW.aemeasurable] at hYW
  rw [indepFun_iff_map_prod_eq_prod_map_map mX.aemeasurable mY.aemeasurable] at h1
  rw [indepFun_iff_map_prod_eq_prod_map_map mZ.aemeasurable mW.aemeasurable] at h2
  rw [indepFun_iff_map_prod_eq_prod_map_map (mX.prodMk mY).aemeasurable (mZ.prodMk mW).aemeasurable, h1, h2] at h
  rw [hXZ, hYW]
  generalize P.map X = p at *
  generalize P.map Y = q at *
  generalize P.map Z = r at *
  generalize P.map W = s at *
  refine Measure.ext_of_lintegral _ fun f hf => ?_
  rw [lintegral_map hf ((mX.prodMk mZ).prodMk (mY.prodMk mW))]
  have hf' : Measurable fun u : (A × B) × C × D => f ((u.1.1, u.2.1), u.1.2, u.2.2) := hf.comp (by fun_prop)
  have e := lintegral_map (μ := P) hf' ((mX.prodMk mY).prodMk (mZ.prodMk mW))
  rw [← e, h, lintegral_prod _ hf'.aemeasurable, lintegral_prod _ hf.aemeasurable]
  have g1 : Measurable fun x : A × B => ∫⁻ y : C × D, f ((x.1, y.1), x.2, y.2) ∂r.prod s := hf'.lintegral_prod_right'
  have g2 : Measurable fun x : A × C => ∫⁻ y : B × D, f (x, y) ∂q.prod s := hf.lintegral_prod_right'
  rw [lintegral_prod _ g1.aemeasurable, lintegral_prod _ g2.aemeasurable]
  refine lintegral_congr fun x => ?_
  have k1 : ∀ b, ∫⁻ y : C × D, f ((x, y.1), b, y.2) ∂r.prod s = ∫⁻ c, ∫⁻ w, f ((x, c), b, w) ∂s ∂r := by
    intro b
    have : Measurable fun y : C × D => f ((x, y.1), b, y.2) := hf.comp (by fun_prop)
    exact lintegral_prod _ this.aemeasurable
  have k2 : ∀ c, ∫⁻ y : B × D, f ((x, c), y) ∂q.prod s = ∫⁻ b, ∫⁻ w, f ((x, c), b, w) ∂s ∂q := by
    intro c
    have : Measurable fun y : B × D => f ((x, c), y) := hf.comp (by fun_prop)
    exact lintegral_prod _ this.aemeasurable
  simp_rw [k1, k2]
  have : Measurable fun u : B × C => ∫⁻ w, f ((x, u.2), u.1, w) ∂s := by
    have : Measurable fun v : (B × C) × D => f ((x, v.1.2), v.1.1, v.2) := hf.comp (by fun_prop)
    exact this.lintegral_prod_right'
  exact lintegral_lintegral_swap this.aemeasurable

/-- Draws of some keys, and something at all others. -/
noncomputable def fill {Key M I : Type} (m : M) (S : Finset (Key × I)) (i : I) (v : S → M) (q : Key) : M := by
  classical exact if hq : (q, i) ∈ S then v ⟨(q, i), hq⟩ else m

theorem fill_measurable {Key M I : Type} [MeasurableSpace M] (m : M) (S : Finset (Key × I)) (i : I) : Measurable (fill m S i) := by
  refine measurable_pi_iff.mpr fun q => ?_
  unfold fill
  by_cases hq : (q, i) ∈ S
  · simp only [dif_pos hq]; exact measurable_pi_apply _
  · simp only [dif_neg hq]; exact measurable_const

/-- Two walkers that start independently and draw from different sources stay independent. -/
theorem apart {Key M I V : Type} [Nonempty M] [MeasurableSpace M] [MeasurableSpace V] {F : Key × I → Ω → M} (hF : ∀ q, Measurable (F q)) (hI : iIndepFun F P)
    {X X' : Ω → V} (mX : Measurable X) (mX' : Measurable X') (i1 : IndepFun X X' P) (i3 : IndepFun (fun ω => (X ω, X' ω)) (fun ω q => F q ω) P)
    {i i' : I} {l l' : List Key} (hdis : ∀ q ∈ l, q ∈ l' → i ≠ i') {f f' : V → (Key → M) → V} (hf : Measurable fun p : V × (Key → M) => f p.1 p.2)
    (hf' : Measurable fun p : V × (Key → M) => f' p.1 p.2) (dep : ∀ x d d', (∀ k ∈ l, d k = d' k) → f x d = f x d')
    (dep' : ∀ x d d', (∀ k ∈ l', d k = d' k) → f' x d = f' x d') :
    IndepFun (fun ω => f (X ω) fun k => F (k, i) ω) (fun ω => f' (X' ω) fun k => F (k, i') ω) P := by
  classical
  obtain ⟨m⟩ : Nonempty M := inferInstance
  obtain ⟨S, hS⟩ : ∃ S : Finset (Key × I), ∀ q, q ∈ S ↔ ∃ k ∈ l, (k, i) = q := ⟨(l.map fun k => (k, i)).toFinset, by simp⟩
  obtain ⟨S', hS'⟩ : ∃ S : Finset (Key × I), ∀ q, q ∈ S ↔ ∃ k ∈ l', (k, i') = q := ⟨(l'.map fun k => (k, i')).toFinset, by simp⟩
  have hd : Disjoint S S' := by
    rw [Finset.disjoint_left]
    intro q hq hq'
    obtain ⟨k, m1, rfl⟩ := (hS q).mp hq
    obtain ⟨k', m2, he⟩ := (hS' _).mp hq'
    obtain ⟨rfl, h2⟩ := Prod.mk.inj he
    exact hdis _ m1 m2 h2.symm
  have i2 := hI.indepFun_finset S S' hd hF
  have mD : Measurable fun ω => fun q : S => F q ω := measurable_pi_iff.mpr fun q => hF q.1
  have mD' : Measurable fun ω => fun q : S' => F q ω := measurable_pi_iff.mpr fun q => hF q.1
  have i4 : IndepFun (fun ω => (X ω, X' ω)) (fun ω => ((fun q : S => F q ω), fun q : S' => F q ω)) P := by
    have hq : Measurable fun y : Key × I → M => ((fun q : S => y q.1), fun q : S' => y q.1) := by
      have h1 : Measurable fun y : Key × I → M => fun q : S => y q.1 := measurable_pi_iff.mpr fun q => measurable_pi_apply q.1
      have h2 : Measurable fun y : Key × I → M => fun q : S' => y q.1 := measurable_pi_iff.mpr fun q => measurable_pi_apply q.1
      exact h1.prodMk h2
    exact i3.comp measurable_id hq
  have i5 := cross mX mX' mD mD' i1 i2 i4
  have g1 : Measurable fun p : V × (S → M) => f p.1 (fill m S i p.2) := by
    have h := hf.comp (measurable_fst.prodMk ((fill_measurable m S i).comp measurable_snd) : Measurable fun p : V × (S → M) => (p.1, fill m S i p.2))
    exact h
  have g2 : Measurable fun p : V × (S' → M) => f' p.1 (fill m S' i' p.2) := by
    have h := hf'.comp (measurable_fst.prodMk ((fill_measurable m S' i').comp measurable_snd) : Measurable fun p : V × (S' → M) => (p.1, fill m S' i' p.2))
    exact h
  have hc := i5.comp g1 g2
  refine hc.congr (Filter.Eventually.of_forall fun ω => ?_) (Filter.Eventually.of_forall fun ω => ?_)
  · refine dep _ _ _ fun k hk => ?_
    simp only [fill, dif_pos ((hS (k, i)).mpr ⟨k, hk, rfl⟩)]
  · refine dep' _ _ _ fun k hk => ?_
    simp only [fill, dif_pos ((hS' (k, i')).mpr ⟨k, hk, rfl⟩)]

variable {ι : Type} [Fintype ι]

/-- The mean of the squares less the square of the mean. -/
noncomputable def spread (x : ι → ℝ) : ℝ := (∑ w, x w ^ 2) / Fintype.card ι - ((∑ w, x w) / Fintype.card ι) ^ 2

theorem spread_nonneg (x : ι → ℝ) : 0 ≤ spread x := by
  unfold spread
  have h := sq_sum_le_card_mul_sum_sq (s := (Finset.univ : Finset ι)) (f := x)
  rcases Nat.eq_zero_or_pos (Fintype.card ι) with h0 | h0
  · simp [h0]
  · have hc : (0 : ℝ) < Fintype.card ι := by exact_mod_cast h0
    rw [div_pow, sub_nonneg, div_le_div_iff₀ (by positivity) hc]
    rw [Finset.card_univ] at h
    nlinarith [h, hc]

variable {X : ι → Ω → ℝ} {m v : ℝ}

theorem spread_integrable (hX : ∀ w, MemLp (X w) 2 P) : Integrable (fun ω => spread fun w => X w ω) P := by
  unfold spread
  refine Integrable.sub ((integrable_finsetSum _ fun w _ => (hX w).integrable_sq).div_const _) ?_
  have : MemLp (fun ω => ∑ w, X w ω) 2 P := memLp_finsetSum _ fun w _ => hX w
  have h := this.integrable_sq.div_const ((Fintype.card ι : ℝ) ^ 2)
  refine h.congr (Filter.Eventually.of_forall fun ω => ?_)
  simp only [div_pow]

theorem mean_memLp (hX : ∀ w, MemLp (X w) 2 P) : MemLp (fun ω => (∑ w, X w ω) / Fintype.card ι) 2 P := by
  have : MemLp (fun ω => ∑ w, X w ω) 2 P := memLp_finsetSum _ fun w _ => hX w
  have h := this.mul_const ((Fintype.card ι : ℝ)⁻¹)
  simpa only [div_eq_mul_inv] using h

/-- What the spread is on average. -/
theorem spread_mean [Nonempty ι] (hX : ∀ w, MemLp (X w) 2 P) (hm : ∀ w, ∫ ω, X w ω ∂P = m) (hv : ∀ w, Var[X w; P] = v) :
    ∫ ω, spread (fun w => X w ω) ∂P = v - Var[fun ω => (∑ w, X w ω) / Fintype.card ι; P] := by
  have hc : (Fintype.card ι : ℝ) ≠ 0 := by exact_mod_cast Fintype.card_ne_zero
  have hmean := mean_memLp hX
  have hsq : ∀ w, ∫ ω, X w ω ^ 2 ∂P = v + m ^ 2 := by
    intro w
    have := variance_eq_sub (hX w)
    rw [hv w, hm w] at this
    have e : P[X w ^ 2] = ∫ ω, X w ω ^ 2 ∂P := rfl
    rw [e] at this
    linarith
  have hmm : ∫ ω, (∑ w, X w ω) / (Fintype.card ι : ℝ) ∂P = m := by
    rw [integral_div, integral_finsetSum _ fun w _ => (hX w).integrable (by norm_num), Finset.sum_congr rfl fun w _ => hm w]
    simp only [Finset.sum_const, Finset.card_univ, nsmul_eq_mul]
    field_simp
  have hvm := variance_eq_sub hmean
  rw [hmm] at hvm
  have e : P[(fun ω => (∑ w, X w ω) / (Fintype.card ι : ℝ)) ^ 2] = ∫ ω, ((∑ w, X w ω) / (Fintype.card ι : ℝ)) ^ 2 ∂P := rfl
  rw [e] at hvm
  unfold spread
  rw [integral_sub ((integrable_finsetSum _ fun w _ => (hX w).integrable_sq).div_const _) hmean.integrable_sq, integral_div,
    integral_finsetSum _ fun w _ => (hX w).integrable_sq, Finset.sum_congr rfl fun w _ => hsq w]
  simp only [Finset.sum_const, Finset.card_univ, nsmul_eq_mul]
  rw [mul_div_cancel_left₀ _ hc]
  linarith

theorem mean_var [Nonempty ι] (hX : ∀ w, MemLp (X w) 2 P) (hv : ∀ w, Var[X w; P] = v) (hI : ∀ w w', w ≠ w' → IndepFun (X w) (X w') P) :
    Var[fun ω => (∑ w, X w ω) / Fintype.card ι; P] = v / Fintype.card ι := by
  have hc : (Fintype.card ι : ℝ) ≠ 0 := by exact_mod_cast Fintype.card_ne_zero
  have h1 : (fun ω => (∑ w, X w ω) / (Fintype.card ι : ℝ)) = fun ω => (∑ w, X w ω) * (Fintype.card ι : ℝ)⁻¹ := by funext ω; rw [div_eq_mul_inv]
  rw [h1, variance_mul_const]
  have h2 := IndepFun.variance_sum (μ := P) (s := (Finset.univ : Finset ι)) (X := X) (fun w _ => hX w) fun w _ w' _ h => hI w w' h
  have h3 : (∑ w, X w) = fun ω => ∑ w, X w ω := by funext ω; rw [Finset.sum_apply]
  rw [h3] at h2
  rw [h2, Finset.sum_congr rfl fun w _ => hv w]
  simp only [Finset.sum_const, Finset.card_univ, nsmul_eq_mul]
  field_simp

end Jaqmc.Average.Variance
