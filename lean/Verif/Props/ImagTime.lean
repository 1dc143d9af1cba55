import Verif.Model.ImagTime
import Verif.Props.SR
import Verif.Props.LossGrad
import Mathlib.Analysis.Calculus.Deriv.Basic
import Mathlib.Analysis.Complex.Basic
import Mathlib.Analysis.Complex.RealDeriv

/-!
# C134 — SR training follows imaginary-time evolution
-/

namespace Jaqmc.ImagTime.Props

open Matrix Jaqmc.SR Jaqmc.LossGrad Jaqmc.ImagTime
open Jaqmc.LossGrad.Spec (walkers covarianceGradient)
open Jaqmc.Stats.Spec (globalMean)

variable {dev m k P : ℕ}

/-! ## Specification -/

/-- The mean over all walkers of all devices. -/
noncomputable def mean (f : Fin dev → Fin m → ℂ) : ℂ := (∑ d, ∑ i, f d i) / (dev * m : ℕ)

/-- How far a change `x` of the parameters is from imaginary-time evolution: `∂_j log ψ - mean` is what parameter `j` does to the normalised
`log ψ`, the local energy minus its mean is what `H` does to it; squared, averaged over the walkers. -/
noncomputable def misfit (D : Fin dev → Fin m → Fin P → ℂ) (E : Fin dev → Fin m → ℂ) (x : Fin P → ℝ) : ℝ :=
  (∑ d, ∑ i, Complex.normSq (∑ j, (x j : ℂ) * (D d i j - mean fun d i => D d i j) - 2 * (E d i - mean E))) / (dev * m : ℕ)

/-! ## Normal equations -/

/-- The objective of damped least squares with a linear term. -/
noncomputable def objective {R : Type} [Fintype R] (O : Matrix R (Fin P) ℝ) (M : Matrix (Fin P) (Fin P) ℝ) (lam : ℝ) (b : R → ℝ) (e p x : Fin P → ℝ) : ℝ :=
  (O *ᵥ x - b) ⬝ᵥ (O *ᵥ x - b) - 2 * (e ⬝ᵥ x) + lam * ((x - p) ⬝ᵥ (M *ᵥ (x - p)))

theorem objective_min {R : Type} [Fintype R] (O : Matrix R (Fin P) ℝ) (M : Matrix (Fin P) (Fin P) ℝ) (hM : Mᵀ = M) (lam : ℝ)
    (hA : (Oᵀ * O + lam • M).PosDef) (b : R → ℝ) (e p x0 : Fin P → ℝ)
    (h0 : (Oᵀ * O + lam • M) *ᵥ x0 = Oᵀ *ᵥ b + e + lam • (M *ᵥ p)) (x : Fin P → ℝ) (hx : x ≠ x0) :
    objective O M lam b e p x0 < objective O M lam b e p x := by
  obtain ⟨h, rfl⟩ : ∃ h, x = x0 + h := ⟨x - x0, by abel⟩
  have hh : h ≠ 0 := fun c => hx (by rw [c, add_zero])
  have hsym : ∀ u v : Fin P → ℝ, u ⬝ᵥ (M *ᵥ v) = v ⬝ᵥ (M *ᵥ u) := fun u v => by
    rw [dotProduct_mulVec, ← mulVec_transpose, hM, dotProduct_comm]
  have hO : ∀ (u : Fin P → ℝ) (w : R → ℝ), (O *ᵥ u) ⬝ᵥ w = u ⬝ᵥ (Oᵀ *ᵥ w) := fun u w => by
    rw [dotProduct_comm, dotProduct_mulVec, ← mulVec_transpose, dotProduct_comm]
  have hpos : 0 < h ⬝ᵥ ((Oᵀ * O + lam • M) *ᵥ h) := by
    have := hA.dotProduct_mulVec_pos hh
    simpa using this
  have h1 := congrArg (fun v => h ⬝ᵥ v) h0
  simp only [add_mulVec, smul_mulVec, dotProduct_add, dotProduct_smul, ← mulVec_mulVec, smul_eq_mul] at h1 hpos
  unfold objective
  have ex : O *ᵥ (x0 + h) - b = (O *ᵥ x0 - b) + O *ᵥ h := by rw [mulVec_add]; abel
  have ep : x0 + h - p = (x0 - p) + h := by abel
  rw [ex, ep]
  simp only [mulVec_add, mulVec_sub, add_dotProduct, dotProduct_add, sub_dotProduct, dotProduct_sub]
  rw [dotProduct_comm b (O *ᵥ h), dotProduct_comm b (O *ᵥ x0), dotProduct_comm (O *ᵥ x0) (O *ᵥ h), hO h (O *ᵥ x0), hO h b, hO h (O *ᵥ h), hsym x0 h, hsym p h, dotProduct_comm e h]
  linarith

/-! ## Sums over walkers -/

theorem sum_flatten_ofFn {β : Type} [AddCommMonoid β] {γ : Type} (f : Fin dev → Fin m → γ) (g : γ → β) :
    (((List.ofFn fun d => List.ofFn fun i => f d i).flatten).map g).sum = ∑ d, ∑ i, g (f d i) := by
  rw [List.map_flatten, List.sum_flatten, List.map_map, List.map_ofFn, List.sum_ofFn]
  refine Finset.sum_congr rfl fun d _ => ?_
  simp only [Function.comp_apply, List.map_ofFn, List.sum_ofFn]

theorem length_flatten_ofFn {γ : Type} (f : Fin dev → Fin m → γ) :
    (List.ofFn fun d => List.ofFn fun i => f d i).flatten.length = dev * m := by
  rw [List.length_flatten, List.map_ofFn, List.sum_ofFn]
  simp

/-- The gradient without clipping, as sums. -/
theorem gradient_none (hd : 0 < dev) (hm : 0 < m) (scale : ℝ) (D : Fin dev → Fin m → Fin P → ℂ) (E : Fin dev → Fin m → ℂ) (grad : Fin P → ℝ)
    (h : IsGradient "none" scale D E grad) (j : Fin P) :
    grad j = 2 * ((∑ d, ∑ i, ((starRingEnd ℂ) (D d i j - mean fun d i => D d i j) * (E d i - mean E)).re) / (dev * m : ℕ))
      + 4 * (mean E).im * (mean fun d i => D d i j).im := by
  obtain ⟨loss, hl⟩ := h j
  have hs : shardsOf D E j ≠ [] := by
    unfold shardsOf
    intro c
    have := congrArg List.length c
    simp at this
    omega
  have hn : ∀ s ∈ shardsOf D E j, s.length = m := by
    intro s hs
    unfold shardsOf at hs
    rw [List.mem_ofFn] at hs
    obtain ⟨d, rfl⟩ := hs
    simp
  have e := Jaqmc.LossGrad.Props.c22_covariance (shardsOf D E j) hs m hm hn scale
  unfold walkers at e
  rw [hl] at e
  simp only [Except.ok.injEq, Prod.mk.injEq, Option.some.injEq] at e
  have gm : ∀ {β : Type} [Field β] (g : ℂ × ℂ → β), globalMean ((shardsOf D E j).flatten.map g)
      = (∑ d, ∑ i, g (D d i j, E d i)) / ((dev * m : ℕ) : β) := by
    intro β _ g
    unfold globalMean shardsOf
    rw [sum_flatten_ofFn, List.length_map, length_flatten_ofFn]
  rw [e.2]
  unfold covarianceGradient
  simp only [gm]
  rfl

theorem clipNone (scale : ℝ) (E : List (List ℂ)) :
    clipComplex "none" scale (E.map (List.map some)) = .ok (E.map (List.map some)) := by
  unfold clipComplex clipReal
  simp only [show ("none" = "iqr") = False by simp, show ("none" = "mad") = False by simp, if_false, if_true]
  congr 1
  simp only [List.map_map]
  induction E with
  | nil => rfl
  | cons l E ih =>
    simp only [List.map_cons, List.zipWith_cons_cons]
    congr 1
    simp only [Function.comp_apply, List.map_map]
    induction l with
    | nil => rfl
    | cons x l ih' =>
      simp only [List.map_cons, List.zipWith_cons_cons]
      congr 1

/-- With clipping, the gradient is that of the clipped energies. -/
theorem gradient_clipped (method : String) (scale : ℝ) (D : Fin dev → Fin m → Fin P → ℂ) (E E' : Fin dev → Fin m → ℂ) (grad : Fin P → ℝ)
    (hc : clipComplex method scale (List.ofFn fun d => List.ofFn fun i => some (E d i))
      = .ok (List.ofFn fun d => List.ofFn fun i => some (E' d i)))
    (h : IsGradient method scale D E grad) : IsGradient "none" scale D E' grad := by
  intro j
  obtain ⟨loss, hl⟩ := h j
  have loss_of : ∀ F : Fin dev → Fin m → ℂ, ((shardsOf D F j).map (List.map fun w : ℂ × ℂ => (⟨some w.1, some w.2⟩ : Walker))).map (List.map Walker.loss)
      = List.ofFn fun d => List.ofFn fun i => some (F d i) := by
    intro F; simp [shardsOf, List.map_ofFn, Function.comp_def]
  have grad_of : ∀ F : Fin dev → Fin m → ℂ, ((shardsOf D F j).map (List.map fun w : ℂ × ℂ => (⟨some w.1, some w.2⟩ : Walker))).map (List.map Walker.grad)
      = List.ofFn fun d => List.ofFn fun i => some (D d i j) := by
    intro F; simp [shardsOf, List.map_ofFn, Function.comp_def]
  have hnone : clipComplex "none" scale (List.ofFn fun d => List.ofFn fun i => some (E' d i))
      = .ok (List.ofFn fun d => List.ofFn fun i => some (E' d i)) := by
    have := clipNone scale (List.ofFn fun d => List.ofFn fun i => E' d i)
    simpa [List.map_ofFn, Function.comp_def] using this
  have hl' := hl
  unfold lossAndGrad reduceSteps reduce at hl' ⊢
  simp only [loss_of, grad_of, hc, hnone, reduceSteps, finalize] at hl' ⊢
  simp only [Except.ok.injEq, Prod.mk.injEq] at hl' ⊢
  exact ⟨_, rfl, hl'.2⟩

/-! ## The score matrix -/

theorem complexO (D : Fin dev → Fin m → Fin P → ℂ) (d : Fin dev) (i : Fin m) (j : Fin P) :
    SR.Spec.O none (complexRaw D) (d, i, 0) j = (D d i j - mean fun d i => D d i j).re / Real.sqrt (dev * m) ∧
    SR.Spec.O none (complexRaw D) (d, i, 1) j = (D d i j - mean fun d i => D d i j).im / Real.sqrt (dev * m) := by
  constructor <;>
  · simp only [SR.Spec.O, SR.Spec.clipped, complexRaw, mean]
    simp [← Complex.ofReal_natCast, ← Complex.ofReal_mul, Complex.div_ofReal_re, Complex.div_ofReal_im]

theorem sum_row (f : Row dev m 2 → ℝ) : ∑ r, f r = ∑ d, ∑ i, (f (d, i, 0) + f (d, i, 1)) := by
  rw [Fintype.sum_prod_type]
  refine Finset.sum_congr rfl fun d _ => ?_
  rw [Fintype.sum_prod_type]
  refine Finset.sum_congr rfl fun i _ => ?_
  rw [Fin.sum_univ_two]

/-- The energies as a right-hand side. -/
noncomputable def rhs (E : Fin dev → Fin m → ℂ) : Row dev m 2 → ℝ := fun r =>
  (if r.2.2 = 0 then (2 * (E r.1 r.2.1 - mean E)).re else (2 * (E r.1 r.2.1 - mean E)).im) / Real.sqrt (dev * m)

theorem misfit_eq (hd : 0 < dev) (hm : 0 < m) (D : Fin dev → Fin m → Fin P → ℂ) (E : Fin dev → Fin m → ℂ) (x : Fin P → ℝ) :
    (SR.Spec.O none (complexRaw D) *ᵥ x - rhs E) ⬝ᵥ (SR.Spec.O none (complexRaw D) *ᵥ x - rhs E) = misfit D E x := by
  have hN : (0 : ℝ) < dev * m := by positivity
  unfold dotProduct misfit
  rw [sum_row, Finset.sum_div]
  refine Finset.sum_congr rfl fun d _ => ?_
  rw [Finset.sum_div]
  refine Finset.sum_congr rfl fun i _ => ?_
  have e0 : (SR.Spec.O none (complexRaw D) *ᵥ x - rhs E) (d, i, 0)
      = (∑ j, (x j : ℂ) * (D d i j - mean fun d i => D d i j) - 2 * (E d i - mean E)).re / Real.sqrt (dev * m) := by
    simp only [Pi.sub_apply, mulVec, dotProduct, complexO, rhs, if_true]
    rw [Complex.sub_re, Complex.re_sum, sub_div, Finset.sum_div]
    congr 1
    refine Finset.sum_congr rfl fun j _ => ?_
    rw [Complex.re_ofReal_mul]; ring
  have e1 : (SR.Spec.O none (complexRaw D) *ᵥ x - rhs E) (d, i, 1)
      = (∑ j, (x j : ℂ) * (D d i j - mean fun d i => D d i j) - 2 * (E d i - mean E)).im / Real.sqrt (dev * m) := by
    simp only [Pi.sub_apply, mulVec, dotProduct, complexO, rhs, show ((1 : Fin 2) = 0) = False by simp, if_false]
    rw [Complex.sub_im, Complex.im_sum, sub_div, Finset.sum_div]
    congr 1
    refine Finset.sum_congr rfl fun j _ => ?_
    rw [Complex.im_ofReal_mul]; ring
  rw [e0, e1, Complex.normSq_apply, div_mul_div_comm, div_mul_div_comm, Real.mul_self_sqrt hN.le]
  push_cast
  rw [add_div]

theorem rhs_eq (hd : 0 < dev) (hm : 0 < m) (D : Fin dev → Fin m → Fin P → ℂ) (E : Fin dev → Fin m → ℂ) (j : Fin P) :
    ((SR.Spec.O none (complexRaw D))ᵀ *ᵥ rhs E) j
      = 2 * ((∑ d, ∑ i, ((starRingEnd ℂ) (D d i j - mean fun d i => D d i j) * (E d i - mean E)).re) / (dev * m : ℕ)) := by
  have hN : (0 : ℝ) < dev * m := by positivity
  simp only [mulVec, dotProduct, transpose_apply]
  rw [sum_row, Finset.sum_div, Finset.mul_sum]
  refine Finset.sum_congr rfl fun d _ => ?_
  rw [Finset.sum_div, Finset.mul_sum]
  refine Finset.sum_congr rfl fun i _ => ?_
  simp only [complexO, rhs, if_true, show ((1 : Fin 2) = 0) = False by simp, if_false]
  rw [div_mul_div_comm, div_mul_div_comm, Real.mul_self_sqrt hN.le]
  simp only [Complex.mul_re, Complex.mul_im, Complex.conj_re, Complex.conj_im]
  push_cast
  simp
  ring

theorem metric_symm (C : Config) (v : Fin P → ℝ) : (SR.Spec.metric C v)ᵀ = SR.Spec.metric C v := by
  unfold SR.Spec.metric
  split
  · exact diagonal_transpose _
  · exact transpose_one

/-- The condition under which a change of the parameters is the best one. -/
theorem best_of_system (hd : 0 < dev) (hm : 0 < m) (D : Fin dev → Fin m → Fin P → ℂ) (E : Fin dev → Fin m → ℂ) (scale : ℝ) (grad : Fin P → ℝ)
    (hgrad : IsGradient "none" scale D E grad) (lam : ℝ) (M : Matrix (Fin P) (Fin P) ℝ) (hM : Mᵀ = M) (p best : Fin P → ℝ)
    (h3 : (SR.Spec.fisher none (complexRaw D) + lam • M).PosDef)
    (h5 : (SR.Spec.fisher none (complexRaw D) + lam • M) *ᵥ best = grad + lam • (M *ᵥ p)) (x : Fin P → ℝ) (hx : x ≠ best) :
    misfit D E best + lam * ((best - p) ⬝ᵥ (M *ᵥ (best - p))) - 8 * (mean E).im * ∑ j, (mean fun d i => D d i j).im * best j
      < misfit D E x + lam * ((x - p) ⬝ᵥ (M *ᵥ (x - p))) - 8 * (mean E).im * ∑ j, (mean fun d i => D d i j).im * x j := by
  rw [SR.Props.fisher_eq] at h3 h5
  have hgr : grad = (SR.Spec.O none (complexRaw D))ᵀ *ᵥ rhs E + fun j => 4 * (mean E).im * (mean fun d i => D d i j).im := by
    funext j
    rw [Pi.add_apply, rhs_eq hd hm, gradient_none hd hm scale D E grad hgrad]
  rw [hgr] at h5
  have := objective_min (SR.Spec.O none (complexRaw D)) M hM lam h3 (rhs E)
    (fun j => 4 * (mean E).im * (mean fun d i => D d i j).im) p _ h5 x hx
  unfold objective at this
  rw [misfit_eq hd hm, misfit_eq hd hm] at this
  have e : ∀ y : Fin P → ℝ, 2 * ((fun j => 4 * (mean E).im * (mean fun d i => D d i j).im) ⬝ᵥ y)
      = 8 * (mean E).im * ∑ j, (mean fun d i => D d i j).im * y j := by
    intro y
    unfold dotProduct
    rw [Finset.mul_sum, Finset.mul_sum]
    exact Finset.sum_congr rfl fun j _ => by ring
  simp only [e] at this
  linarith

/-- **C134** (complex wavefunctions).  Standard SR (`robust_gamma` not given, no clipping of scores), at any point of any training run, with or
without momentum, MARCH metric, condition limit: the parameters move by `-learning rate` times the unique change that comes closest to
imaginary-time evolution — the smallest `misfit` plus damping times the squared distance (in the metric) from the momentum — up to a linear
term that is present only if the mean energy of the batch has an imaginary part (the baseline of the gradient lacks a conjugate, C22). -/
theorem c134_direction (C : Config) (hC : SR.Spec.Valid C) (heps : ∀ t, C.eps ≤ C.damping t) (hg : C.gamma = .standard) (hclip : C.clip = none)
    (lr : ℕ → ℝ) (st : State P × ℕ) (hr : SR.Spec.Reachable C lr .none st) (hd : 0 < dev) (hm : 0 < m) (v0 : Row dev m 2 → ℝ)
    (D : Fin dev → Fin m → Fin P → ℂ) (E : Fin dev → Fin m → ℂ) (scale : ℝ) (grad : Fin P → ℝ) (hgrad : IsGradient "none" scale D E grad) :
    ∃ (lam : ℝ) (best : Fin P → ℝ), C.damping st.1.counter ≤ lam ∧ (C.maxCond = none → lam = C.damping st.1.counter) ∧
      (∀ j, (step C lr .none v0 (complexRaw D) grad st).1 j = -lr st.2 * best j) ∧
      let M := SR.Spec.metric C (SR.Spec.variance C (complexRaw D) st.1)
      let p := SR.Spec.momentum C st.1
      let J := fun x : Fin P → ℝ => misfit D E x + lam * ((x - p) ⬝ᵥ (M *ᵥ (x - p))) - 8 * (mean E).im * ∑ j, (mean fun d i => D d i j).im * x j
      ∀ x, x ≠ best → J best < J x := by
  obtain ⟨lam, h1, h2, h3, h4⟩ := SR.Props.c76_step C hC heps lr .none st hr hd hm (Or.inr rfl) v0 (complexRaw D) grad
  refine ⟨lam, _, h1, h2, SR.Props.c77_plain C lr st v0 (complexRaw D) grad, ?_⟩
  intro M p J x hx
  have hl : 0 < lam := lt_of_lt_of_le (hC.damping _) h1
  rw [hclip] at h3 h4
  have h5 : (SR.Spec.fisher none (complexRaw D) + lam • M) *ᵥ (update C v0 (complexRaw D) grad st.1).1 = grad + lam • (M *ᵥ p) := by
    rw [h4]
    have : SR.Spec.gamma C st.1.counter lam = 1 / lam := by unfold SR.Spec.gamma; rw [hg]
    rw [this]
    exact SR.Props.c76_standard _ M lam hl h3 grad p
  exact best_of_system hd hm D E scale grad hgrad lam M (metric_symm _ _) p _ h3 h5 x hx

/-! ## Real wavefunctions -/

theorem realO (D : Fin dev → Fin m → Fin P → ℝ) (d : Fin dev) (i : Fin m) (a : Fin 1) (j : Fin P) :
    SR.Spec.O none (complexRaw fun d i j => (D d i j : ℂ)) (d, i, 0) j = SR.Spec.O none (realRaw D) (d, i, a) j ∧
    SR.Spec.O none (complexRaw fun d i j => (D d i j : ℂ)) (d, i, 1) j = 0 := by
  constructor <;> simp [SR.Spec.O, SR.Spec.clipped, complexRaw, realRaw]

theorem real_sums (D : Fin dev → Fin m → Fin P → ℝ) (i j : Fin P) :
    ∑ r, SR.Spec.O none (realRaw D) r i * SR.Spec.O none (realRaw D) r j
      = ∑ r, SR.Spec.O none (complexRaw fun d i j => (D d i j : ℂ)) r i * SR.Spec.O none (complexRaw fun d i j => (D d i j : ℂ)) r j := by
  rw [sum_row, Fintype.sum_prod_type]
  refine Finset.sum_congr rfl fun d _ => ?_
  rw [Fintype.sum_prod_type]
  refine Finset.sum_congr rfl fun n _ => ?_
  rw [Fin.sum_univ_one, (realO D d n 0 i).1, (realO D d n 0 j).1, (realO D d n 0 i).2]
  ring

theorem real_fisher (D : Fin dev → Fin m → Fin P → ℝ) :
    SR.Spec.fisher none (realRaw D) = SR.Spec.fisher none (complexRaw fun d i j => (D d i j : ℂ)) := by
  funext i j
  exact real_sums D i j

/-- **C134** (real wavefunctions): the same, with real local energies and no extra term. -/
theorem c134_real (C : Config) (hC : SR.Spec.Valid C) (heps : ∀ t, C.eps ≤ C.damping t) (hg : C.gamma = .standard) (hclip : C.clip = none)
    (lr : ℕ → ℝ) (st : State P × ℕ) (hr : SR.Spec.Reachable C lr .none st) (hd : 0 < dev) (hm : 0 < m) (v0 : Row dev m 1 → ℝ)
    (D : Fin dev → Fin m → Fin P → ℝ) (E : Fin dev → Fin m → ℝ) (scale : ℝ) (grad : Fin P → ℝ)
    (hgrad : IsGradient "none" scale (fun d i j => (D d i j : ℂ)) (fun d i => (E d i : ℂ)) grad) :
    ∃ (lam : ℝ) (best : Fin P → ℝ), C.damping st.1.counter ≤ lam ∧ (C.maxCond = none → lam = C.damping st.1.counter) ∧
      (∀ j, (step C lr .none v0 (realRaw D) grad st).1 j = -lr st.2 * best j) ∧
      let M := SR.Spec.metric C (SR.Spec.variance C (realRaw D) st.1)
      let p := SR.Spec.momentum C st.1
      let J := fun x : Fin P → ℝ => misfit (fun d i j => (D d i j : ℂ)) (fun d i => (E d i : ℂ)) x + lam * ((x - p) ⬝ᵥ (M *ᵥ (x - p)))
      ∀ x, x ≠ best → J best < J x := by
  obtain ⟨lam, h1, h2, h3, h4⟩ := SR.Props.c76_step C hC heps lr .none st hr hd hm (Or.inl rfl) v0 (realRaw D) grad
  refine ⟨lam, _, h1, h2, SR.Props.c77_plain C lr st v0 (realRaw D) grad, ?_⟩
  intro M p J x hx
  have hl : 0 < lam := lt_of_lt_of_le (hC.damping _) h1
  rw [hclip, real_fisher] at h3 h4
  have h5 : (SR.Spec.fisher none (complexRaw fun d i j => (D d i j : ℂ)) + lam • M) *ᵥ (update C v0 (realRaw D) grad st.1).1
      = grad + lam • (M *ᵥ p) := by
    rw [h4]
    have : SR.Spec.gamma C st.1.counter lam = 1 / lam := by unfold SR.Spec.gamma; rw [hg]
    rw [this]
    exact SR.Props.c76_standard _ M lam hl h3 grad p
  have := best_of_system hd hm _ _ scale grad hgrad lam M (metric_symm _ _) p _ h3 h5 x hx
  have him : (mean fun d i => ((E d i : ℝ) : ℂ)).im = 0 := by
    unfold mean
    have : (∑ d, ∑ i, ((E d i : ℝ) : ℂ)) / ((dev * m : ℕ) : ℂ) = (((∑ d, ∑ i, E d i) / (dev * m : ℕ) : ℝ) : ℂ) := by push_cast; rfl
    rw [this, Complex.ofReal_im]
  rw [him] at this
  simp only [J]
  linarith

/-! ## Clipped energies, eigenstates, scores -/

/-- **C134** (clipping).  With every `clip_method` ("mad" is the default) the same holds with the clipped energies `f E` in place of the energies. -/
theorem c134_clipped (C : Config) (hC : SR.Spec.Valid C) (heps : ∀ t, C.eps ≤ C.damping t) (hg : C.gamma = .standard) (hclip : C.clip = none)
    (lr : ℕ → ℝ) (st : State P × ℕ) (hr : SR.Spec.Reachable C lr .none st) (hd : 0 < dev) (hm : 0 < m) (v0 : Row dev m 2 → ℝ)
    (D : Fin dev → Fin m → Fin P → ℂ) (E : Fin dev → Fin m → ℂ) (method : String) (hmet : method = "iqr" ∨ method = "mad" ∨ method = "none")
    (scale : ℝ) (grad : Fin P → ℝ) (hgrad : IsGradient method scale D E grad) :
    ∃ f : ℂ → ℂ, clipComplex method scale (List.ofFn fun d => List.ofFn fun i => some (E d i))
        = .ok (List.ofFn fun d => List.ofFn fun i => some (f (E d i))) ∧
    ∃ (lam : ℝ) (best : Fin P → ℝ), C.damping st.1.counter ≤ lam ∧ (C.maxCond = none → lam = C.damping st.1.counter) ∧
      (∀ j, (step C lr .none v0 (complexRaw D) grad st).1 j = -lr st.2 * best j) ∧
      let E' := fun d i => f (E d i)
      let M := SR.Spec.metric C (SR.Spec.variance C (complexRaw D) st.1)
      let p := SR.Spec.momentum C st.1
      let J := fun x : Fin P → ℝ => misfit D E' x + lam * ((x - p) ⬝ᵥ (M *ᵥ (x - p))) - 8 * (mean E').im * ∑ j, (mean fun d i => D d i j).im * x j
      ∀ x, x ≠ best → J best < J x := by
  have hne : (List.ofFn fun d => List.ofFn fun i => E d i).flatten ≠ [] := by
    intro c
    have := congrArg List.length c
    rw [length_flatten_ofFn] at this
    have h2 : 0 < dev * m := Nat.mul_pos hd hm
    simp at this
    omega
  obtain ⟨f, hf, -⟩ := Jaqmc.LossGrad.clipComplex_shift method hmet scale (List.ofFn fun d => List.ofFn fun i => E d i) hne 0
  have hf' : clipComplex method scale (List.ofFn fun d => List.ofFn fun i => some (E d i))
      = .ok (List.ofFn fun d => List.ofFn fun i => some (f (E d i))) := by
    simpa [List.map_ofFn, Function.comp_def] using hf
  exact ⟨f, hf', c134_direction C hC heps hg hclip lr st hr hd hm v0 D _ scale grad (gradient_clipped method scale D E _ grad hf' hgrad)⟩

/-- There always is a gradient. -/
theorem gradient_exists (hd : 0 < dev) (hm : 0 < m) (method : String) (hmet : method = "iqr" ∨ method = "mad" ∨ method = "none") (scale : ℝ)
    (D : Fin dev → Fin m → Fin P → ℂ) (E : Fin dev → Fin m → ℂ) : ∃ grad, IsGradient method scale D E grad := by
  have : ∀ j, ∃ g, ∃ loss, lossAndGrad method scale [walkers (shardsOf D E j)] = .ok (loss, some g) := by
    intro j
    obtain ⟨loss, g, h, -⟩ := Jaqmc.LossGrad.Props.c22_real_shift_partial method hmet scale 0 [shardsOf D E j] (by simp) (by
      intro s hs
      rw [List.mem_singleton] at hs
      subst hs
      constructor
      · intro c
        have := congrArg List.length c
        simp [shardsOf] at this
        omega
      · intro d hd' c
        unfold shardsOf at hd'
        rw [List.mem_ofFn] at hd'
        obtain ⟨i, rfl⟩ := hd'
        have := congrArg List.length c
        simp at this
        omega)
    exact ⟨g, _, h⟩
  choose g hg using this
  exact ⟨g, hg⟩

/-- **C134** (eigenstates).  When all local energies are the same real number, the gradient vanishes and without momentum the parameters stay as
they are, whatever the other settings. -/
theorem c134_eigenstate (C : Config) (hC : SR.Spec.Valid C) (heps : ∀ t, C.eps ≤ C.damping t) (hmu : C.mu = none)
    (lr : ℕ → ℝ) (st : State P × ℕ) (mx : MaxNorm) (hr : SR.Spec.Reachable C lr mx st) (hd : 0 < dev) (hm : 0 < m) (v0 : Row dev m 2 → ℝ)
    (D : Fin dev → Fin m → Fin P → ℂ) (e : ℝ) (scale : ℝ) (grad : Fin P → ℝ) (hgrad : IsGradient "none" scale D (fun _ _ => (e : ℂ)) grad) :
    (∀ j, grad j = 0) ∧ ∀ j, (step C lr mx v0 (complexRaw D) grad st).1 j = 0 := by
  have hN : ((dev * m : ℕ) : ℂ) ≠ 0 := by
    have : dev * m ≠ 0 := by positivity
    exact_mod_cast this
  have hmean : (mean fun (_ : Fin dev) (_ : Fin m) => (e : ℂ)) = e := by
    unfold mean
    simp only [Finset.sum_const, Finset.card_univ, Fintype.card_fin, nsmul_eq_mul]
    rw [← mul_assoc, ← Nat.cast_mul, mul_comm, mul_div_assoc, div_self hN, mul_one]
  have h0 : grad = 0 := by
    funext j
    rw [gradient_none hd hm scale D _ grad hgrad j, hmean]
    simp
  refine ⟨fun j => by rw [h0]; rfl, fun j => ?_⟩
  obtain ⟨lam, -, -, -, h4⟩ := SR.Props.c76_step C hC heps lr mx st hr hd hm (Or.inr rfl) v0 (complexRaw D) grad
  have hp : SR.Spec.momentum C st.1 = 0 := by funext j; simp [SR.Spec.momentum, hmu]
  rw [hp, h0] at h4
  rw [SR.Props.step_smul, h0, h4]
  simp [SR.Spec.robust]

/-- **C134** (scores).  The derivative that SR uses is that of the log-wavefunction, real or complex. -/
theorem c134_scores (x : ℝ) :
    (∀ (f : ℝ → ℂ) (f' : ℂ), HasDerivAt f f' x → adaptiveGrad (.inr f) x = f') ∧
    (∀ (f : ℝ → ℝ) (f' : ℝ), HasDerivAt f f' x → adaptiveGrad (.inl f) x = f' ∧ adaptiveGrad (.inr fun t => (f t : ℂ)) x = f') := by
  have key : ∀ (f : ℝ → ℂ) (f' : ℂ), HasDerivAt f f' x → adaptiveGrad (.inr f) x = f' := by
    intro f f' h
    have h1 : HasDerivAt (fun t => (f t).re) f'.re x := by
      exact (Complex.reCLM.hasFDerivAt (x := f x)).comp_hasDerivAt x h
    have h2 : HasDerivAt (fun t => (f t).im) f'.im x := by
      exact (Complex.imCLM.hasFDerivAt (x := f x)).comp_hasDerivAt x h
    simp only [adaptiveGrad, h1.deriv, h2.deriv]
    rw [mul_comm]; exact Complex.re_add_im f'
  refine ⟨key, fun f f' h => ⟨by simp only [adaptiveGrad, h.deriv], key _ _ h.ofReal_comp⟩⟩

/-- Non-vacuity: the hypotheses are met by a fresh optimizer with damping 1/1000, two walkers on one device, one complex parameter derivative that
differs between them, and energies 0 and 1; the best change is then not zero. -/
example : ∃ (C : Config) (grad : Fin 1 → ℝ), SR.Spec.Valid C ∧ (∀ t, C.eps ≤ C.damping t) ∧ C.gamma = .standard ∧ C.clip = none ∧
    SR.Spec.Reachable C (fun _ => 1) .none (SR.init 1, 0) ∧
    IsGradient "none" 5 (fun (_ : Fin 1) (i : Fin 2) (_ : Fin 1) => (i : ℂ) * (1 + Complex.I)) (fun _ i => (i : ℂ)) grad ∧
    grad 0 = 1 / 2 := by
  obtain ⟨g, hg⟩ := gradient_exists (dev := 1) (m := 2) (P := 1) one_pos two_pos "none" (Or.inr (Or.inr rfl)) 5
    (fun _ i _ => (i : ℂ) * (1 + Complex.I)) (fun _ i => (i : ℂ))
  refine ⟨⟨fun _ => 1 / 1000, none, .standard, none, none, false, 1 / 1000000, none, none⟩, g, ?_, ?_, rfl, rfl, .init, hg, ?_⟩
  · exact ⟨by norm_num, by simp, by simp, by simp, by intro t; norm_num, by simp⟩
  · intro t; norm_num
  · rw [gradient_none one_pos two_pos 5 _ _ g hg 0]
    simp only [mean, Fin.sum_univ_two, Finset.univ_unique, Finset.sum_singleton]
    simp [Complex.div_re, Complex.normSq_ofNat, Complex.div_ofNat_re]
    norm_num

end Jaqmc.ImagTime.Props
