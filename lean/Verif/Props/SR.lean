import Verif.Lemmas.SR
import Mathlib.LinearAlgebra.Dimension.Finite
import Mathlib.LinearAlgebra.FiniteDimensional.Lemmas
/-!
C76: one step of the SR optimizer is the documented robust SR/SPRING/MARCH step, for every history.
C77: size and direction of the update.
C78: the update does not depend on chunking or on how the samples are split over devices.
C79: the bound on the condition number.
-/
namespace Jaqmc.SR.Props
open Matrix SR.Lemmas

variable {dev m k P : ℕ}

/-! ### States -/

theorem normalizeMasked_nonneg (x : Fin P → ℝ) (mask : Fin P → Prop) (hx : ∀ j, mask j → 0 ≤ x j) (j : Fin P) (hj : mask j) :
    0 ≤ normalizeMasked x mask j := by
  unfold normalizeMasked
  simp only [hj, if_true]
  refine div_nonneg (hx j hj) ?_
  split_ifs with h1 h2 <;> first | exact h1.le | exact h2.le | exact zero_le_one | skip
  all_goals linarith

theorem accVar_nonneg (C : Config) (hC : Spec.Valid C) (s : Matrix (Row dev m k) (Fin P) ℝ) (st : State P)
    (h : ∀ j, 0 ≤ st.accVar j) (j : Fin P) : 0 ≤ accVar C s st j := by
  unfold accVar
  cases hb : C.beta with
  | none => exact h j
  | some b =>
    obtain ⟨b0, b1⟩ := hC.beta b hb st.counter
    simp only
    split_ifs with hv hj
    · refine add_nonneg (mul_nonneg b0 (h j)) (mul_nonneg (by linarith) ?_)
      exact normalizeMasked_nonneg _ _ (fun i _ => Finset.sum_nonneg fun r _ => sq_nonneg _) j hj
    · exact h j
    · exact h j

/-- C76: whatever happened before, the accumulated variances are never negative and both counters equal each other. -/
theorem c76_history (C : Config) (hC : Spec.Valid C) (lr : ℕ → ℝ) (mx : MaxNorm) (st : State P × ℕ)
    (h : Spec.Reachable C lr mx st) : (∀ j, 0 ≤ st.1.accVar j) ∧ st.2 = st.1.counter := by
  induction h with
  | init => exact ⟨fun j => zero_le_one, rfl⟩
  | step v0 raw grad st _ ih =>
    refine ⟨fun j => ?_, by simp [SR.step, update, ih.2]⟩
    have ha := accVar_nonneg C hC (score C.clip raw) st.1 ih.1
    simp only [SR.step, update]
    cases hb : C.beta with
    | none => simpa [hb] using ha j
    | some b =>
      obtain ⟨b0, b1⟩ := hC.beta b hb st.1.counter
      simp only
      split_ifs with hv
      · exact ha j
      · exact add_nonneg (mul_nonneg b0 (ha j)) (mul_nonneg (by linarith) (sq_nonneg _))

theorem scaleOf_pos (C : Config) (hC : Spec.Valid C) (s : Matrix (Row dev m k) (Fin P) ℝ) (st : State P)
    (h : ∀ j, 0 ≤ st.accVar j) (j : Fin P) : 0 < scaleOf C s st j := by
  unfold scaleOf
  cases hb : C.beta with
  | none => exact zero_lt_one
  | some b =>
    have := accVar_nonneg C hC s st h j
    have := hC.eps
    simp only; positivity

theorem metric_eq (C : Config) (raw : Raw dev m k P) (hC : Spec.Valid C) (st : State P) :
    Spec.metric C (Spec.variance C raw st) = diagonal fun j => (scaleOf C (score C.clip raw) st j)⁻¹ := by
  unfold Spec.metric scaleOf
  cases hb : C.beta with
  | none => simp
  | some b => simp [Spec.variance, score_eq C.clip hC.clip]

theorem lamOf_le (C : Config) (v0 : Row dev m k → ℝ) (G : Matrix (Row dev m k) (Row dev m k) ℝ) (t : ℕ) :
    C.damping t ≤ lamOf C v0 G t ∧ (C.maxCond = none → lamOf C v0 G t = C.damping t) := by
  unfold lamOf
  cases hc : C.maxCond with
  | none => exact ⟨le_rfl, fun _ => rfl⟩
  | some c => exact ⟨le_max_left _ _, fun h => by simp at h⟩

theorem getGamma_eq (C : Config) (t : ℕ) (lam : ℝ) (h0 : 0 < lam) (h : C.eps ≤ lam) : getGamma C t lam = Spec.gamma C t lam := by
  have hm : max lam C.eps = lam := max_eq_left h
  unfold getGamma Spec.gamma
  rw [hm]
  cases C.gamma with
  | schedule f =>
    simp only
    have h3 : min 1 (1 / lam) ≤ max 1 (1 / lam) := min_le_max
    split_ifs with h1 h2
    · rw [max_eq_right h1.le, min_eq_left h3]
    · rw [max_eq_left (not_lt.1 h1), min_eq_right h2.le]
    · rw [max_eq_left (not_lt.1 h1), min_eq_left (not_lt.1 h2)]
  | standard =>
    simp only
    rw [max_eq_left (min_le_right _ _), min_eq_left (le_max_right _ _)]
  | sqrt =>
    simp only
    have hs : 0 < Real.sqrt lam := Real.sqrt_pos.2 h0
    have hsq : Real.sqrt lam * Real.sqrt lam = lam := Real.mul_self_sqrt h0.le
    rcases le_total 1 (Real.sqrt lam) with h1 | h1
    · have a : 1 / Real.sqrt lam ≤ 1 := (div_le_one hs).2 h1
      have b : 1 / lam ≤ 1 / Real.sqrt lam := one_div_le_one_div_of_le hs (by nlinarith)
      rw [max_eq_left ((min_le_right _ _).trans b), min_eq_left (a.trans (le_max_left _ _))]
    · have a : 1 ≤ 1 / Real.sqrt lam := (one_le_div hs).2 h1
      have b : 1 / Real.sqrt lam ≤ 1 / lam := one_div_le_one_div_of_le h0 (by nlinarith)
      rw [max_eq_left ((min_le_left _ _).trans a), min_eq_left (b.trans (le_max_right _ _))]

theorem gram_eq_mul (C : Config) (hC : Spec.Valid C) (raw : Raw dev m k P) (scale : Fin P → ℝ) (hs : ∀ j, 0 ≤ scale j) (hd : 0 < dev) :
    gram C.chunks (score C.clip raw) scale = Spec.O C.clip raw * diagonal scale * (Spec.O C.clip raw)ᵀ := by
  ext r t
  rw [gram_eq C.chunks hC.chunks _ _ hs hd, score_eq C.clip hC.clip]
  rw [Matrix.mul_apply]
  simp only [Matrix.mul_diagonal, Matrix.transpose_apply]

theorem fisher_eq (clip : Option ℝ) (raw : Raw dev m k P) : Spec.fisher clip raw = (Spec.O clip raw)ᵀ * Spec.O clip raw := by
  ext i j; simp [Spec.fisher, Matrix.mul_apply]

/-- The step with an arbitrary damping and factor. -/
theorem update_eq (C : Config) (hC : Spec.Valid C) (hd : 0 < dev) (hm : 0 < m) (hk : k = 1 ∨ k = 2) (v0 : Row dev m k → ℝ)
    (raw : Raw dev m k P) (grad : Fin P → ℝ) (st : State P) (hst : ∀ j, 0 ≤ st.accVar j) :
    let S := Spec.fisher C.clip raw
    let M := Spec.metric C (Spec.variance C raw st)
    let lam := lamOf C v0 (lift (gram C.chunks (score C.clip raw) (scaleOf C (score C.clip raw) st))) st.counter
    (update C v0 raw grad st).1 = Spec.robust S M lam (getGamma C st.counter lam) grad (Spec.momentum C st) ∧
      (S + lam • M).PosDef ∧ S.PosSemidef ∧ M.PosDef ∧ 0 < lam := by
  intro S M lam
  have hsc := scaleOf_pos C hC (score C.clip raw) st hst
  set scale := scaleOf C (score C.clip raw) st with hscale
  have hlam : 0 < lam := (hC.damping st.counter).trans_le (lamOf_le C v0 _ _).1
  set O := Spec.O C.clip raw with hO
  set V : Matrix (Fin k) (Row dev m k) ℝ := meanVec with hV
  have hG : lift (gram C.chunks (score C.clip raw) scale) = O * diagonal scale * Oᵀ + Vᵀ * V := by
    rw [gram_eq_mul C hC raw scale (fun j => (hsc j).le) hd, lift_eq hk C.clip raw hd hm]
  have hE : Vᵀ * V * O = 0 := by
    rw [Matrix.mul_assoc, hV, hO, meanVec_mul hk C.clip raw hd hm, Matrix.mul_zero]
  have hEs : (Vᵀ * V).PosSemidef := by
    have := posSemidef_conjTranspose_mul_self V
    simpa [Matrix.conjTranspose_eq_transpose_of_trivial] using this
  have key := kernel O scale hsc (Vᵀ * V) hE hEs lam (getGamma C st.counter lam) hlam grad (Spec.momentum C st)
  have hS : S = Oᵀ * O := fisher_eq C.clip raw
  have hM : M = diagonal fun j => (scale j)⁻¹ := metric_eq C raw hC st
  refine ⟨?_, ?_, ?_, ?_, hlam⟩
  · have h1 := key.1
    unfold Spec.robust
    rw [hS, hM, ← h1]
    have hF : system C v0 (score C.clip raw) scale st.counter = O * diagonal scale * Oᵀ + Vᵀ * V + lam • (1 : Matrix (Row dev m k) (Row dev m k) ℝ) := by
      change lift (gram C.chunks (score C.clip raw) scale) + lam • _ = _
      rw [hG]
    have hp : (fun j => match C.mu with | some mu => mu st.counter * st.prevDelta j | none => 0) = Spec.momentum C st := rfl
    have hDv : ∀ v : Fin P → ℝ, diagonal scale *ᵥ v = fun j => scale j * v j := fun v => by
      funext j; rw [mulVec_diagonal]
    funext j
    simp only [update, ← hscale]
    rw [hF, score_eq C.clip hC.clip, ← hO]
    simp only [hDv, Pi.add_apply, Pi.sub_apply, Pi.smul_apply, smul_eq_mul]
    have hlam2 : lamOf C v0 (lift (gram C.chunks O scale)) st.counter = lam := by
      rw [hO, ← score_eq C.clip hC.clip]
    rw [hlam2]
    rfl
  · rw [hS, hM]; exact key.2.1
  · rw [hS]
    have := posSemidef_conjTranspose_mul_self O
    simpa [Matrix.conjTranspose_eq_transpose_of_trivial] using this
  · rw [hM]; exact PosDef.diagonal fun j => inv_pos.2 (hsc j)

/-- C76: in every state the optimizer can reach, whatever samples and gradient it is given, for any number of devices and
chunks, its preconditioned gradient is the documented robust step: with `S` the Fisher matrix of the (clipped) centred
scores, `M` the metric, `p` the momentum, `λ` at least the damping of this step (equal to it unless a condition number is
prescribed) and `γ` as documented, `δ = A⁻¹((S + γλ²M)A⁻¹g + λMp)`, `A = S + λM` being positive definite. -/
theorem c76_step (C : Config) (hC : Spec.Valid C) (heps : ∀ t, C.eps ≤ C.damping t) (lr : ℕ → ℝ) (mx : MaxNorm) (st : State P × ℕ)
    (hr : Spec.Reachable C lr mx st) (hd : 0 < dev) (hm : 0 < m) (hk : k = 1 ∨ k = 2) (v0 : Row dev m k → ℝ)
    (raw : Raw dev m k P) (grad : Fin P → ℝ) :
    let S := Spec.fisher C.clip raw
    let M := Spec.metric C (Spec.variance C raw st.1)
    ∃ lam, C.damping st.1.counter ≤ lam ∧ (C.maxCond = none → lam = C.damping st.1.counter) ∧ (S + lam • M).PosDef ∧
      (update C v0 raw grad st.1).1 = Spec.robust S M lam (Spec.gamma C st.1.counter lam) grad (Spec.momentum C st.1) := by
  intro S M
  obtain ⟨h1, h2, -, -, h5⟩ := update_eq C hC hd hm hk v0 raw grad st.1 (c76_history C hC lr mx st hr).1
  refine ⟨_, (lamOf_le C v0 _ _).1, (lamOf_le C v0 _ _).2, h2, ?_⟩
  rw [h1, getGamma_eq C _ _ h5 ((heps _).trans (lamOf_le C v0 _ _).1)]

/-- C76: of any symmetric matrix (the Gram matrix is one up to rounding), lifting the null space removes the rows' means and puts the value one there:
it is `P G P + VᵀV`, `P = 1 - VᵀV`; the means (the rows of `V`, orthonormal) become eigenvectors of eigenvalue one. -/
theorem c76_lift (hd : 0 < dev) (hm : 0 < m) (hk : k = 1 ∨ k = 2) (G : Matrix (Row dev m k) (Row dev m k) ℝ) (hG : Gᵀ = G) :
    let V : Matrix (Fin k) (Row dev m k) ℝ := fun a r => if a = r.2.2 then 1 / Real.sqrt ((m * dev : ℕ) : ℝ) else 0
    V * Vᵀ = 1 ∧ lift G = (1 - Vᵀ * V) * G * (1 - Vᵀ * V) + Vᵀ * V ∧ lift G * Vᵀ = Vᵀ := by
  intro V
  have hV : (meanVec : Matrix (Fin k) (Row dev m k) ℝ) = V := by
    funext a r
    simp only [meanVec, nullBasis_eq hk, V]
    split <;> simp_all
  have hN : (0 : ℝ) < ((m * dev : ℕ) : ℝ) := by exact_mod_cast Nat.mul_pos hm hd
  have h1 : V * Vᵀ = 1 := by
    funext a b
    have e : (V * Vᵀ) a b = ∑ i : Fin dev, ∑ j : Fin m, ∑ c : Fin k, (if a = c then 1 / Real.sqrt ((m * dev : ℕ) : ℝ) else 0) *
        (if b = c then 1 / Real.sqrt ((m * dev : ℕ) : ℝ) else 0) := by
      rw [Matrix.mul_apply, Fintype.sum_prod_type]
      refine Finset.sum_congr rfl fun i _ => ?_
      rw [Fintype.sum_prod_type]
      rfl
    rw [e, Matrix.one_apply]
    by_cases hab : a = b
    · subst hab
      have sq : 1 / Real.sqrt ((m * dev : ℕ) : ℝ) * (1 / Real.sqrt ((m * dev : ℕ) : ℝ)) = 1 / ((m * dev : ℕ) : ℝ) := by
        rw [div_mul_div_comm, one_mul, Real.mul_self_sqrt hN.le]
      have e2 : ∀ c : Fin k, (if a = c then 1 / Real.sqrt ((m * dev : ℕ) : ℝ) else 0) * (if a = c then 1 / Real.sqrt ((m * dev : ℕ) : ℝ) else 0) =
          if a = c then 1 / ((m * dev : ℕ) : ℝ) else 0 := by
        intro c
        split
        · exact sq
        · exact mul_zero 0
      simp only [e2, Finset.sum_ite_eq, Finset.mem_univ, if_true, Finset.sum_const, Finset.card_univ, Fintype.card_fin, nsmul_eq_mul]
      push_cast at hN ⊢
      have h1 : (m : ℝ) ≠ 0 := by exact_mod_cast hm.ne'
      have h2 : (dev : ℝ) ≠ 0 := by exact_mod_cast hd.ne'
      field_simp
    · rw [if_neg hab]
      refine Finset.sum_eq_zero fun i _ => Finset.sum_eq_zero fun j _ => Finset.sum_eq_zero fun c _ => ?_
      by_cases h : a = c
      · rw [if_neg (c := b = c) (fun hb => hab (h.trans hb.symm)), mul_zero]
      · rw [if_neg h, zero_mul]
  have hshift : (fun r t : Row dev m k => (∑ a, nullBasis k a r * nullBasis k a t) / ((m * dev : ℕ) : ℝ)) = Vᵀ * V := by
    rw [← hV]
    funext r t
    simp only [Matrix.mul_apply, Matrix.transpose_apply, meanVec]
    rw [Finset.sum_div]
    refine Finset.sum_congr rfl fun a _ => ?_
    rw [div_mul_div_comm, Real.mul_self_sqrt hN.le]
  have h2 : lift G = (1 - Vᵀ * V) * G * (1 - Vᵀ * V) + Vᵀ * V := by
    unfold lift
    simp only
    rw [hshift, hV, Matrix.transpose_mul, Matrix.transpose_mul, Matrix.transpose_transpose, hG]
    simp only [Matrix.sub_mul, Matrix.mul_sub, Matrix.one_mul, Matrix.mul_one, Matrix.mul_assoc]
    abel
  refine ⟨h1, h2, ?_⟩
  have h3 : (1 - Vᵀ * V) * Vᵀ = 0 := by
    rw [Matrix.sub_mul, Matrix.mul_assoc Vᵀ V Vᵀ, h1]
    simp
  rw [h2, Matrix.add_mul, Matrix.mul_assoc ((1 - Vᵀ * V) * G), h3, Matrix.mul_assoc Vᵀ V Vᵀ, h1]
  simp

/-- C76: standard SR. With `γ = 1/λ` the step solves `(S + λM) δ = g + λ M p`. -/
theorem c76_standard (S M : Matrix (Fin P) (Fin P) ℝ) (lam : ℝ) (hl : 0 < lam) (hA : (S + lam • M).PosDef) (g p : Fin P → ℝ) :
    (S + lam • M) *ᵥ Spec.robust S M lam (1 / lam) g p = g + lam • (M *ᵥ p) := by
  have hAi : (S + lam • M) * (S + lam • M)⁻¹ = 1 := mul_nonsing_inv _ ((Matrix.isUnit_iff_isUnit_det _).1 hA.isUnit)
  unfold Spec.robust
  have : (1 / lam * lam ^ 2) = lam := by field_simp
  rw [this, mulVec_mulVec, hAi, one_mulVec, mulVec_mulVec, hAi, one_mulVec]

/-- C76: on a mode of curvature `h` (`S v = h M v`, gradient `M v`, momentum `b v`) the step is `(h + γλ²)/(h + λ)²` along
the gradient, between `1/h` and `γ`, and keeps the fraction `λ/(h + λ)` of the momentum. -/
theorem c76_mode (S M : Matrix (Fin P) (Fin P) ℝ) (lam gamma h b : ℝ) (hl : 0 < lam) (hh : 0 ≤ h) (hA : (S + lam • M).PosDef)
    (v : Fin P → ℝ) (hv : S *ᵥ v = h • (M *ᵥ v)) :
    Spec.robust S M lam gamma (M *ᵥ v) (b • v) = ((h + gamma * lam ^ 2) / (h + lam) ^ 2 + lam / (h + lam) * b) • v := by
  have hAi : (S + lam • M)⁻¹ * (S + lam • M) = 1 := nonsing_inv_mul _ ((Matrix.isUnit_iff_isUnit_det _).1 hA.isUnit)
  have hhl : h + lam ≠ 0 := by positivity
  have hAv : ∀ c : ℝ, (S + lam • M)⁻¹ *ᵥ (c • (M *ᵥ v)) = (c / (h + lam)) • v := by
    intro c
    have : c • (M *ᵥ v) = (S + lam • M) *ᵥ ((c / (h + lam)) • v) := by
      rw [mulVec_smul, add_mulVec, smul_mulVec, hv, ← add_smul, smul_smul]
      congr 1; field_simp
    rw [this, mulVec_mulVec, hAi, one_mulVec]
  unfold Spec.robust
  have h1 := hAv 1
  rw [one_smul] at h1
  rw [h1, mulVec_smul, add_mulVec, smul_mulVec, hv, mulVec_smul, ← add_smul, smul_smul, smul_smul, ← add_smul, hAv]
  congr 1
  field_simp

/-! ### C77 -/

/-- The robust step without momentum is an ascent direction of the gradient. -/
theorem robust_pos (S M : Matrix (Fin P) (Fin P) ℝ) (lam gamma : ℝ) (hl : 0 < lam) (hg : 0 < gamma) (hS : S.PosSemidef) (hM : M.PosDef)
    (g : Fin P → ℝ) (hgr : g ≠ 0) : 0 < g ⬝ᵥ Spec.robust S M lam gamma g 0 := by
  have hA : (S + lam • M).PosDef := PosDef.posSemidef_add hS (hM.smul hl)
  have hB : (S + (gamma * lam ^ 2) • M).PosDef := PosDef.posSemidef_add hS (hM.smul (by positivity))
  have hAi : (S + lam • M) * (S + lam • M)⁻¹ = 1 := mul_nonsing_inv _ ((Matrix.isUnit_iff_isUnit_det _).1 hA.isUnit)
  set y := (S + lam • M)⁻¹ *ᵥ g with hy
  have hAy : (S + lam • M) *ᵥ y = g := by rw [hy, mulVec_mulVec, hAi, one_mulVec]
  have hy0 : y ≠ 0 := by rintro h; rw [h, mulVec_zero] at hAy; exact hgr hAy.symm
  have hsym : ((S + lam • M)⁻¹)ᵀ = (S + lam • M)⁻¹ := by
    have := hA.inv.isHermitian
    simpa [Matrix.IsHermitian, Matrix.conjTranspose_eq_transpose_of_trivial] using this
  unfold Spec.robust
  rw [mulVec_zero, smul_zero, add_zero, ← hy, dotProduct_mulVec, ← mulVec_transpose, hsym, ← hy]
  have := hB.dotProduct_mulVec_pos hy0
  simpa using this

theorem getGamma_pos (C : Config) (t : ℕ) (lam : ℝ) (h0 : 0 < lam) : 0 < getGamma C t lam := by
  have : 0 < max lam C.eps := lt_max_of_lt_left h0
  unfold getGamma
  simp only
  refine lt_min (lt_max_of_lt_right (lt_min one_pos (by positivity))) (lt_max_of_lt_left one_pos)

theorem norm2_smul {ι : Type} [Fintype ι] (c : ℝ) (v : ι → ℝ) : norm2 (fun i => c * v i) = |c| * norm2 v := by
  unfold norm2
  simp only [mul_pow, ← Finset.mul_sum]
  rw [Real.sqrt_mul (sq_nonneg c), Real.sqrt_sq_eq_abs]

theorem norm2_nonneg {ι : Type} [Fintype ι] (v : ι → ℝ) : 0 ≤ norm2 v := Real.sqrt_nonneg _

/-- The factor the constrained norm applies to an update of norm `n`. -/
noncomputable def factor (lr : ℕ → ℝ) (mx : MaxNorm) (eps : ℝ) (t : ℕ) (n : ℝ) : ℝ :=
  match mx with
  | .none => lr t
  | .fixed => min (10 ^ 8) (lr t / (n + eps))
  | .schedule f => min (lr t) (f t / (n + eps))

theorem step_smul (C : Config) (lr : ℕ → ℝ) (mx : MaxNorm) (v0 : Row dev m k → ℝ) (raw : Raw dev m k P) (grad : Fin P → ℝ)
    (st : State P × ℕ) :
    (step C lr mx v0 raw grad st).1 = fun j =>
      -factor lr mx C.eps st.2 (norm2 (update C v0 raw grad st.1).1) * (update C v0 raw grad st.1).1 j := by
  funext j
  cases mx <;> simp [step, constrain, factor]

theorem factor_pos (lr : ℕ → ℝ) (hlr : ∀ t, 0 < lr t) (mx : MaxNorm) (hmx : ∀ f, mx = .schedule f → ∀ t, 0 < f t) (eps : ℝ)
    (he : 0 < eps) (t : ℕ) (n : ℝ) (hn : 0 ≤ n) : 0 < factor lr mx eps t n := by
  unfold factor
  cases mx with
  | none => exact hlr _
  | fixed => exact lt_min (by norm_num) (div_pos (hlr _) (by linarith))
  | schedule f => exact lt_min (hlr _) (div_pos (hmx f rfl _) (by linarith))

/-- C77: without momentum, the change of the parameters is a descent direction of the loss whose gradient was given, for
every positive learning rate and constraint. -/
theorem c77_descent (C : Config) (hC : Spec.Valid C) (hmu : C.mu = none) (lr : ℕ → ℝ) (hlr : ∀ t, 0 < lr t) (mx : MaxNorm)
    (hmx : ∀ f, mx = .schedule f → ∀ t, 0 < f t) (st : State P × ℕ) (hr : Spec.Reachable C lr mx st)
    (hd : 0 < dev) (hm : 0 < m) (hk : k = 1 ∨ k = 2) (v0 : Row dev m k → ℝ) (raw : Raw dev m k P) (grad : Fin P → ℝ)
    (hg : grad ≠ 0) : ∑ j, grad j * (step C lr mx v0 raw grad st).1 j < 0 := by
  obtain ⟨h1, -, h3, h4, h5⟩ := update_eq C hC hd hm hk v0 raw grad st.1 (c76_history C hC lr mx st hr).1
  have hp : Spec.momentum C st.1 = 0 := by funext j; simp [Spec.momentum, hmu]
  rw [hp] at h1
  have hpos := robust_pos _ _ _ _ h5 (getGamma_pos C st.1.counter _ h5) h3 h4 grad hg
  rw [← h1] at hpos
  rw [step_smul]
  have hc := factor_pos lr hlr mx hmx C.eps hC.eps st.2 _ (norm2_nonneg (update C v0 raw grad st.1).1)
  generalize factor lr mx C.eps st.2 _ = c at hc ⊢
  have : ∑ j, grad j * (-c * (update C v0 raw grad st.1).1 j) = -c * (grad ⬝ᵥ (update C v0 raw grad st.1).1) := by
    simp only [dotProduct, Finset.mul_sum]
    exact Finset.sum_congr rfl fun j _ => by ring
  rw [this]
  have := mul_pos hc hpos
  linarith

/-- C77: with a prescribed maximal norm, no update exceeds it, nor the learning rate times the preconditioned gradient. -/
theorem c77_norm (C : Config) (hC : Spec.Valid C) (lr f : ℕ → ℝ) (hlr : ∀ t, 0 ≤ lr t) (hf : ∀ t, 0 ≤ f t)
    (st : State P × ℕ) (v0 : Row dev m k → ℝ) (raw : Raw dev m k P) (grad : Fin P → ℝ) :
    norm2 (step C lr (.schedule f) v0 raw grad st).1 ≤ f st.2 ∧
      norm2 (step C lr (.schedule f) v0 raw grad st).1 ≤ lr st.2 * norm2 (update C v0 raw grad st.1).1 := by
  rw [step_smul, norm2_smul]
  have hn := norm2_nonneg (update C v0 raw grad st.1).1
  set n := norm2 (update C v0 raw grad st.1).1
  have he := hC.eps
  have hc : 0 ≤ min (lr st.2) (f st.2 / (n + C.eps)) := le_min (hlr _) (div_nonneg (hf _) (by linarith))
  simp only [factor, abs_neg]
  rw [abs_of_nonneg hc]
  constructor
  · calc min (lr st.2) (f st.2 / (n + C.eps)) * n ≤ f st.2 / (n + C.eps) * n := mul_le_mul_of_nonneg_right (min_le_right _ _) hn
      _ = f st.2 * (n / (n + C.eps)) := by ring
      _ ≤ f st.2 * 1 := mul_le_mul_of_nonneg_left ((div_le_one (by linarith)).2 (by linarith)) (hf _)
      _ = f st.2 := mul_one _
  · exact mul_le_mul_of_nonneg_right (min_le_left _ _) hn

/-- C77: with `max_norm = "fixed"` the norm of the update is the learning rate, up to the factor `‖δ‖/(‖δ‖ + eps)` and the
cap at `10⁸ ‖δ‖`. -/
theorem c77_fixed (C : Config) (hC : Spec.Valid C) (lr : ℕ → ℝ) (hlr : ∀ t, 0 ≤ lr t)
    (st : State P × ℕ) (v0 : Row dev m k → ℝ) (raw : Raw dev m k P) (grad : Fin P → ℝ) :
    let n := norm2 (update C v0 raw grad st.1).1
    norm2 (step C lr .fixed v0 raw grad st).1 = min (10 ^ 8 * n) (lr st.2 * (n / (n + C.eps))) := by
  intro n
  rw [step_smul, norm2_smul]
  have hn : 0 ≤ n := norm2_nonneg (update C v0 raw grad st.1).1
  have he := hC.eps
  have hc : (0 : ℝ) ≤ min (10 ^ 8) (lr st.2 / (n + C.eps)) := le_min (by norm_num) (div_nonneg (hlr _) (by linarith))
  simp only [factor, abs_neg]
  rw [abs_of_nonneg hc, min_mul_of_nonneg _ _ hn]
  congr 1; ring

/-- C77: without a maximal norm, the update is minus the learning rate times the preconditioned gradient. -/
theorem c77_plain (C : Config) (lr : ℕ → ℝ) (st : State P × ℕ) (v0 : Row dev m k → ℝ) (raw : Raw dev m k P) (grad : Fin P → ℝ)
    (j : Fin P) : (step C lr .none v0 raw grad st).1 j = -lr st.2 * (update C v0 raw grad st.1).1 j := by
  rw [step_smul]; rfl

/-! ### C78 -/

/-- C78: every column of the weighted score is counted exactly once, however many devices and chunks share the work. -/
theorem c78_gram (chunks : Option ℕ) (hn : ∀ n, chunks = some n → 0 < n) (s : Matrix (Row dev m k) (Fin P) ℝ) (scale : Fin P → ℝ)
    (hs : ∀ j, 0 ≤ scale j) (hd : 0 < dev) (r t : Row dev m k) :
    gram chunks s scale r t = ∑ j, s r j * scale j * s t j := gram_eq chunks hn s scale hs hd r t

theorem O_split {dev' m' : ℕ} (clip : Option ℝ) (raw : Raw dev m k P) (raw' : Raw dev' m' k P) (e : Fin dev × Fin m ≃ Fin dev' × Fin m')
    (he : ∀ x, raw' (e x).1 (e x).2 = raw x.1 x.2) (x : Fin dev × Fin m) (a : Fin k) (j : Fin P) :
    Spec.O clip raw' ((e x).1, (e x).2, a) j = Spec.O clip raw (x.1, x.2, a) j := by
  have hc : ∀ x, Spec.clipped clip raw' (e x).1 (e x).2 = Spec.clipped clip raw x.1 x.2 := by
    intro x; funext a j
    have hrm : Spec.rowMean raw' (e x).1 (e x).2 = Spec.rowMean raw x.1 x.2 := by simp only [Spec.rowMean, he]
    cases clip <;> simp only [Spec.clipped, hrm, he]
  have hcard : dev' * m' = dev * m := by
    have := Fintype.card_congr e
    simpa using this.symm
  have hcard' : (dev' : ℝ) * m' = dev * m := by exact_mod_cast hcard
  have hsum : ∑ d, ∑ i, Spec.clipped clip raw' d i a j = ∑ d, ∑ i, Spec.clipped clip raw d i a j := by
    rw [← Fintype.sum_prod_type', ← Fintype.sum_prod_type', ← e.sum_comp]
    exact Finset.sum_congr rfl fun x _ => by rw [hc]
  simp only [Spec.O, hc, hsum, hcard']

theorem sum_rows {dev' m' : ℕ} (e : Fin dev × Fin m ≃ Fin dev' × Fin m') (f : Row dev m k → ℝ) (f' : Row dev' m' k → ℝ)
    (h : ∀ x a, f' ((e x).1, (e x).2, a) = f (x.1, x.2, a)) : ∑ r, f' r = ∑ r, f r := by
  let e' : Row dev m k ≃ Row dev' m' k :=
    (Equiv.prodAssoc _ _ _).symm.trans ((e.prodCongr (Equiv.refl (Fin k))).trans (Equiv.prodAssoc _ _ _))
  rw [← e'.sum_comp]
  exact Finset.sum_congr rfl fun r _ => h (r.1, r.2.1) r.2.2

/-- C78: two runs in the same state that see the same samples, split differently over any number of devices, in any order
and with any chunking of the Gram matrix, compute the same preconditioned gradient and the same new state (without adaptive
damping, whose start vector depends on the order of the samples). -/
theorem c78_split {dev' m' : ℕ} (C : Config) (hC : Spec.Valid C) (hcond : C.maxCond = none) (chunks' : Option ℕ)
    (hch : ∀ n, chunks' = some n → 0 < n) (lr : ℕ → ℝ) (mx : MaxNorm) (st : State P × ℕ)
    (hr : Spec.Reachable C lr mx st) (hd : 0 < dev) (hm : 0 < m) (hd' : 0 < dev') (hm' : 0 < m') (hk : k = 1 ∨ k = 2)
    (raw : Raw dev m k P) (raw' : Raw dev' m' k P) (e : Fin dev × Fin m ≃ Fin dev' × Fin m')
    (he : ∀ x, raw' (e x).1 (e x).2 = raw x.1 x.2) (v0 : Row dev m k → ℝ) (v0' : Row dev' m' k → ℝ) (grad : Fin P → ℝ) :
    step { C with chunks := chunks' } lr mx v0' raw' grad st = step C lr mx v0 raw grad st := by
  set C' : Config := { C with chunks := chunks' } with hC'
  have hC2 : Spec.Valid C' := ⟨hC.eps, hC.clip, hC.beta, hch, hC.damping, hC.cond⟩
  have hst := (c76_history C hC lr mx st hr).1
  have hO := O_split C.clip raw raw' e he
  have hF : Spec.fisher C.clip raw' = Spec.fisher C.clip raw := by
    funext i j
    exact sum_rows e _ _ fun x a => by rw [hO, hO]
  have hv : (fun j => ∑ r, Spec.O C.clip raw' r j ^ 2) = fun j => ∑ r, Spec.O C.clip raw r j ^ 2 := by
    funext j
    exact sum_rows e _ _ fun x a => by rw [hO]
  have hacc : accVar C' (Spec.O C.clip raw') st.1 = accVar C (Spec.O C.clip raw) st.1 := by
    funext j
    have hvj := congrFun hv
    simp only [accVar, hC', hvj]
  have h1 := (update_eq C hC hd hm hk v0 raw grad st.1 hst).1
  have h2 := (update_eq C' hC2 hd' hm' hk v0' raw' grad st.1 hst).1
  have hdelta : (update C' v0' raw' grad st.1).1 = (update C v0 raw grad st.1).1 := by
    rw [h1, h2, (lamOf_le C v0 _ _).2 hcond, (lamOf_le C' v0' _ _).2 hcond]
    change Spec.robust (Spec.fisher C.clip raw') (Spec.metric C (accVar C' (Spec.O C.clip raw') st.1)) _ _ _ _ = _
    rw [hF, hacc]
    rfl
  have hnew : (update C' v0' raw' grad st.1).2 = (update C v0 raw grad st.1).2 := by
    have key : ∀ {dev m k : ℕ} (C : Config) (v0 : Row dev m k → ℝ) (raw : Raw dev m k P), (update C v0 raw grad st.1).2 =
      ⟨st.1.counter + 1, (update C v0 raw grad st.1).1, match C.beta with
        | some beta => if C.varMode then accVar C (score C.clip raw) st.1 else fun j => beta st.1.counter *
            accVar C (score C.clip raw) st.1 j + (1 - beta st.1.counter) * ((update C v0 raw grad st.1).1 j - st.1.prevDelta j) ^ 2
        | none => accVar C (score C.clip raw) st.1⟩ := fun _ _ _ => rfl
    rw [key, key, hdelta, score_eq _ hC.clip, score_eq _ hC2.clip, hacc]
  refine Prod.ext ?_ ?_
  · rw [step_smul, step_smul, hdelta]
  · change ((update C' v0' raw' grad st.1).2, st.2 + 1) = ((update C v0 raw grad st.1).2, st.2 + 1)
    rw [hnew]

/-! ### C79 -/

/-- C79: if the power iteration does not underestimate the Gram matrix, the factorized matrix has at most the prescribed
condition number: any two Rayleigh quotients differ by at most this factor.  Missing: the hypothesis on the power iteration
does not always hold, see `c79_exceeds`. -/
theorem c79_condition_partial (C : Config) (hC : Spec.Valid C) (c : ℝ) (hc : C.maxCond = some c) (hd : 0 < dev) (hm : 0 < m)
    (hk : k = 1 ∨ k = 2) (v0 : Row dev m k → ℝ) (raw : Raw dev m k P) (st : State P) (hst : ∀ j, 0 ≤ st.accVar j)
    (hest : ∀ x : Row dev m k → ℝ,
      x ⬝ᵥ (lift (gram C.chunks (score C.clip raw) (scaleOf C (score C.clip raw) st)) *ᵥ x) ≤
        powerIteration (lift (gram C.chunks (score C.clip raw) (scaleOf C (score C.clip raw) st))) v0 10 * (x ⬝ᵥ x))
    (x y : Row dev m k → ℝ) :
    let F := system C v0 (score C.clip raw) (scaleOf C (score C.clip raw) st) st.counter
    (x ⬝ᵥ (F *ᵥ x)) * (y ⬝ᵥ y) ≤ c * (y ⬝ᵥ (F *ᵥ y)) * (x ⬝ᵥ x) := by
  intro F
  have hsc := scaleOf_pos C hC (score C.clip raw) st hst
  have hG : (lift (gram C.chunks (score C.clip raw) (scaleOf C (score C.clip raw) st))).PosSemidef := by
    rw [gram_eq_mul C hC raw _ (fun j => (hsc j).le) hd, lift_eq hk C.clip raw hd hm]
    exact lift_posSemidef _ _ fun j => (hsc j).le
  have hc1 := hC.cond c hc
  have hF : F = lift (gram C.chunks (score C.clip raw) (scaleOf C (score C.clip raw) st)) +
    lamOf C v0 (lift (gram C.chunks (score C.clip raw) (scaleOf C (score C.clip raw) st))) st.counter • 1 := rfl
  rw [hF]
  set G := lift (gram C.chunks (score C.clip raw) (scaleOf C (score C.clip raw) st)) with hGdef
  set E := powerIteration G v0 10 with hE
  set lam := lamOf C v0 G st.counter with hlam
  have hl : E / (c - 1) ≤ lam := by
    rw [hlam]; simp only [lamOf, hc, requiredDamping]
    exact (le_max_left _ _).trans (le_max_right _ _)
  have hl2 : E ≤ lam * (c - 1) := (div_le_iff₀ (by linarith)).1 hl
  have hl0 : 0 < lam := (hC.damping st.counter).trans_le (lamOf_le C v0 _ _).1
  have q : ∀ v, v ⬝ᵥ ((G + lam • (1 : Matrix (Row dev m k) (Row dev m k) ℝ)) *ᵥ v) = v ⬝ᵥ (G *ᵥ v) + lam * (v ⬝ᵥ v) := by
    intro v; rw [add_mulVec, smul_mulVec, one_mulVec, dotProduct_add, dotProduct_smul, smul_eq_mul]
  rw [q, q]
  have hx := hest x
  have hy : 0 ≤ y ⬝ᵥ (G *ᵥ y) := by simpa using hG.dotProduct_mulVec_nonneg y
  have hxx : 0 ≤ x ⬝ᵥ x := by simpa using dotProduct_star_self_nonneg x
  have hyy : 0 ≤ y ⬝ᵥ y := by simpa using dotProduct_star_self_nonneg y
  have h1 : (x ⬝ᵥ (G *ᵥ x) + lam * (x ⬝ᵥ x)) ≤ c * lam * (x ⬝ᵥ x) := by nlinarith
  calc _ ≤ c * lam * (x ⬝ᵥ x) * (y ⬝ᵥ y) := mul_le_mul_of_nonneg_right h1 hyy
    _ = c * (lam * (y ⬝ᵥ y)) * (x ⬝ᵥ x) := by ring
    _ ≤ _ := by
        refine mul_le_mul_of_nonneg_right (mul_le_mul_of_nonneg_left (by linarith) (by linarith)) hxx

/-- A vector that is orthogonal to two others, in dimension three or more. -/
theorem exists_orth {m : ℕ} (hm : 3 ≤ m) (a b : Fin m → ℝ) : ∃ u : Fin m → ℝ, u ≠ 0 ∧ ∑ i, a i * u i = 0 ∧ ∑ i, b i * u i = 0 := by
  let A : Matrix (Fin 2) (Fin m) ℝ := Matrix.of fun p i => if p = 0 then a i else b i
  let L : (Fin m → ℝ) →ₗ[ℝ] (Fin 2 → ℝ) := Matrix.mulVecLin A
  have hker : LinearMap.ker L ≠ ⊥ := by
    refine LinearMap.ker_ne_bot_of_finrank_lt ?_
    simp; omega
  obtain ⟨u, hu, hu0⟩ := Submodule.exists_mem_ne_zero_of_ne_bot hker
  refine ⟨u, hu0, ?_, ?_⟩
  · have := congrFun (LinearMap.mem_ker.1 hu) 0
    have h2 : (A *ᵥ u) 0 = 0 := this
    simpa [A, Matrix.mulVec, dotProduct] using h2
  · have := congrFun (LinearMap.mem_ker.1 hu) 1
    have h2 : (A *ᵥ u) 1 = 0 := this
    simpa [A, Matrix.mulVec, dotProduct] using h2

/-- The Gram matrix of `m` samples of one real score `K u`. -/
theorem lift_single {m : ℕ} (hm : 0 < m) (C : Config) (hC : Spec.Valid C) (hclip : C.clip = none) (hbeta : C.beta = none) (st : State 1) (K : ℝ)
    (u : Fin m → ℝ) (hu : ∑ i, u i = 0) (r t : Row 1 m 1) :
    let raw : Raw 1 m 1 1 := fun _ i _ _ => Real.sqrt m * K * u i
    lift (gram C.chunks (score C.clip raw) (scaleOf C (score C.clip raw) st)) r t = K ^ 2 * u r.2.1 * u t.2.1 + 1 / m := by
  intro raw
  have hsc : ∀ j, scaleOf C (score C.clip raw) st j = 1 := fun j => by simp [scaleOf, hbeta]
  have hm0 : (m : ℝ) ≠ 0 := by positivity
  have hsm : Real.sqrt m ≠ 0 := (Real.sqrt_pos.2 (by positivity)).ne'
  have hO : ∀ r j, Spec.O C.clip raw r j = K * u r.2.1 := by
    intro r j
    simp only [Spec.O, Spec.clipped, hclip, raw]
    rw [Fintype.sum_unique]
    rw [← Finset.mul_sum, hu]
    simp only [Nat.cast_one, one_mul, mul_zero, zero_div, sub_zero]
    field_simp
  rw [gram_eq_mul C hC raw _ (fun j => by rw [hsc]; exact zero_le_one) one_pos, lift_eq (Or.inl rfl) C.clip raw one_pos hm]
  rw [Matrix.add_apply, Matrix.mul_apply, Matrix.mul_apply]
  simp only [Matrix.mul_diagonal, Matrix.transpose_apply, hO, hsc, meanVec, nullBasis_eq (Or.inl rfl), Fintype.sum_unique]
  rw [if_pos (Subsingleton.elim _ _), if_pos (Subsingleton.elim _ _), div_mul_div_comm, Real.mul_self_sqrt (by positivity)]
  simp only [mul_one]
  norm_num
  ring

theorem sum_row_single {m : ℕ} (f : Row 1 m 1 → ℝ) : ∑ r, f r = ∑ i, f (0, i, 0) := by
  simp [Fintype.sum_prod_type]

/-- C79: the bound is not guaranteed. From three real samples on, whatever the (fixed) start vector of the power iteration
(with a non-zero mean), whatever the prescribed number and whatever `B`, there are scores for which the factorized matrix has
a condition number larger than `B`: two Rayleigh quotients differ by more than this factor. -/
theorem c79_exceeds {m : ℕ} (hm : 3 ≤ m) (C : Config) (hC : Spec.Valid C) (hclip : C.clip = none) (hbeta : C.beta = none) (c : ℝ)
    (hc : C.maxCond = some c) (v0 : Row 1 m 1 → ℝ) (hv0 : ∑ r, v0 r ≠ 0) (st : State 1) (B : ℝ) :
    ∃ (raw : Raw 1 m 1 1) (x y : Row 1 m 1 → ℝ), x ≠ 0 ∧ y ≠ 0 ∧
      B * (y ⬝ᵥ (system C v0 (score C.clip raw) (scaleOf C (score C.clip raw) st) st.counter *ᵥ y)) * (x ⬝ᵥ x) <
        (x ⬝ᵥ (system C v0 (score C.clip raw) (scaleOf C (score C.clip raw) st) st.counter *ᵥ x)) * (y ⬝ᵥ y) := by
  have hm0 : 0 < m := by omega
  have hmr : (0 : ℝ) < m := by positivity
  obtain ⟨u, hu0, hu1, hu2⟩ := exists_orth hm (fun _ => 1) (fun i => v0 (0, i, 0))
  obtain ⟨y, hy0, hy1, hy2⟩ := exists_orth hm (fun _ => 1) u
  simp only [one_mul] at hu1 hy1
  have huu : 0 < ∑ i, u i * u i := by
    refine lt_of_le_of_ne (Finset.sum_nonneg fun i _ => mul_self_nonneg _) fun h => hu0 ?_
    funext i
    have := (Finset.sum_eq_zero_iff_of_nonneg fun i _ => mul_self_nonneg (u i)).1 h.symm i (Finset.mem_univ i)
    simpa using this
  have hyy : 0 < ∑ i, y i * y i := by
    refine lt_of_le_of_ne (Finset.sum_nonneg fun i _ => mul_self_nonneg _) fun h => hy0 ?_
    funext i
    have := (Finset.sum_eq_zero_iff_of_nonneg fun i _ => mul_self_nonneg (y i)).1 h.symm i (Finset.mem_univ i)
    simpa using this
  set lam := max (C.damping st.counter) (max (1 / (c - 1)) 0) with hlam
  have hl0 : 0 < lam := (hC.damping _).trans_le (le_max_left _ _)
  set K := Real.sqrt ((|B| * lam + 1) / ∑ i, u i * u i) with hK
  have hK2 : K ^ 2 * ∑ i, u i * u i = |B| * lam + 1 := by
    rw [hK, Real.sq_sqrt (by positivity)]; exact div_mul_cancel₀ _ huu.ne'
  let raw : Raw 1 m 1 1 := fun _ i _ _ => Real.sqrt m * K * u i
  set G := lift (gram C.chunks (score C.clip raw) (scaleOf C (score C.clip raw) st)) with hG
  have hGe : ∀ r t, G r t = K ^ 2 * u r.2.1 * u t.2.1 + 1 / m := lift_single hm0 C hC hclip hbeta st K u hu1
  have hGv : ∀ (v : Row 1 m 1 → ℝ) r, (G *ᵥ v) r = K ^ 2 * u r.2.1 * (∑ i, u i * v (0, i, 0)) + (∑ i, v (0, i, 0)) / m := by
    intro v r
    simp only [Matrix.mulVec, dotProduct, hGe, sum_row_single, add_mul, Finset.sum_add_distrib, Finset.mul_sum, Finset.sum_div]
    congr 1 <;> exact Finset.sum_congr rfl fun i _ => by ring
  -- the power iteration stays in the span of the constant vector
  have hn0 : norm2 v0 ≠ 0 := by
    intro h
    have h1 : ∑ r, v0 r ^ 2 = 0 := by
      have h2 : 0 ≤ ∑ r, v0 r ^ 2 := Finset.sum_nonneg fun r _ => sq_nonneg _
      have := Real.sq_sqrt h2
      rw [norm2] at h
      rw [← this, h]; simp
    refine hv0 (Finset.sum_eq_zero fun r _ => ?_)
    have := (Finset.sum_eq_zero_iff_of_nonneg fun r _ => sq_nonneg (v0 r)).1 h1 r (Finset.mem_univ r)
    simpa using this
  have hconst : ∀ t : ℝ, norm2 (fun _ : Row 1 m 1 => t) = Real.sqrt m * |t| := by
    intro t
    rw [norm2, sum_row_single]
    simp [Real.sqrt_sq_eq_abs]
  have hGc : ∀ t : ℝ, G *ᵥ (fun _ => t) = fun _ => t := by
    intro t; funext r
    rw [hGv, ← Finset.sum_mul, hu1]
    simp; field_simp
  set s := fun v : Row 1 m 1 → ℝ => fun i => (G *ᵥ v) i / norm2 (G *ᵥ v) with hs
  have hfirst : ∃ t : ℝ, m * t ^ 2 = 1 ∧ s (fun i => v0 i / norm2 v0) = fun _ => t := by
    have h1 : G *ᵥ (fun i => v0 i / norm2 v0) = fun _ => (∑ r, v0 r) / norm2 v0 / m := by
      funext r
      rw [hGv, sum_row_single v0, ← Finset.sum_div]
      have : ∑ i, u i * (v0 (0, i, 0) / norm2 v0) = 0 := by
        have : ∑ i, u i * (v0 (0, i, 0) / norm2 v0) = (∑ i, v0 (0, i, 0) * u i) / norm2 v0 := by
          rw [Finset.sum_div]; exact Finset.sum_congr rfl fun i _ => by ring
        rw [this, hu2, zero_div]
      rw [this]; ring
    refine ⟨((∑ r, v0 r) / norm2 v0 / m) / norm2 (fun _ : Row 1 m 1 => (∑ r, v0 r) / norm2 v0 / m), ?_, by rw [hs]; simp only [h1]⟩
    have hq : (∑ r, v0 r) / norm2 v0 / m ≠ 0 := div_ne_zero (div_ne_zero hv0 hn0) hmr.ne'
    rw [hconst]
    generalize (∑ r, v0 r) / norm2 v0 / m = q at hq
    rw [div_pow, mul_pow, Real.sq_sqrt hmr.le, sq_abs]
    field_simp
  have hiter : ∀ n, ∃ t : ℝ, m * t ^ 2 = 1 ∧ s^[n + 1] (fun i => v0 i / norm2 v0) = fun _ => t := by
    intro n
    induction n with
    | zero => exact hfirst
    | succ n ih =>
      obtain ⟨t, ht, hv⟩ := ih
      refine ⟨t, ht, ?_⟩
      rw [Function.iterate_succ_apply', hv, hs]
      have h1 : Real.sqrt m * |t| = 1 := by
        have : Real.sqrt (m * t ^ 2) = 1 := by rw [ht]; simp
        rwa [Real.sqrt_mul hmr.le, Real.sqrt_sq_eq_abs] at this
      simp only [hGc, hconst, h1, div_one]
  have hpow : powerIteration G v0 10 = 1 := by
    obtain ⟨t, ht, hv⟩ := hiter 9
    unfold powerIteration
    change (s^[10] fun i => v0 i / norm2 v0) ⬝ᵥ (G *ᵥ (s^[10] fun i => v0 i / norm2 v0)) = 1
    rw [hv, hGc, dotProduct, sum_row_single]
    simp only [Finset.sum_const, Finset.card_univ, Fintype.card_fin, nsmul_eq_mul]
    rw [← ht]; ring
  have hsys : system C v0 (score C.clip raw) (scaleOf C (score C.clip raw) st) st.counter = G + lam • (1 : Matrix (Row 1 m 1) (Row 1 m 1) ℝ) := by
    unfold system
    simp only [← hG]
    congr 2
    rw [lamOf, hc]
    simp only [requiredDamping, hpow, hlam]
  refine ⟨raw, fun r => u r.2.1, fun r => y r.2.1, ?_, ?_, ?_⟩
  · intro h; exact hu0 (funext fun i => congrFun h (0, i, 0))
  · intro h; exact hy0 (funext fun i => congrFun h (0, i, 0))
  rw [hsys]
  have q : ∀ v, v ⬝ᵥ ((G + lam • (1 : Matrix (Row 1 m 1) (Row 1 m 1) ℝ)) *ᵥ v) = v ⬝ᵥ (G *ᵥ v) + lam * (v ⬝ᵥ v) := by
    intro v; rw [add_mulVec, smul_mulVec, one_mulVec, dotProduct_add, dotProduct_smul, smul_eq_mul]
  have eu : (fun r : Row 1 m 1 => u r.2.1) ⬝ᵥ (fun r : Row 1 m 1 => u r.2.1) = ∑ i, u i * u i := by
    rw [dotProduct, sum_row_single]
  have ey : (fun r : Row 1 m 1 => y r.2.1) ⬝ᵥ (fun r : Row 1 m 1 => y r.2.1) = ∑ i, y i * y i := by
    rw [dotProduct, sum_row_single]
  have gu : (fun r : Row 1 m 1 => u r.2.1) ⬝ᵥ (G *ᵥ (fun r : Row 1 m 1 => u r.2.1)) = K ^ 2 * (∑ i, u i * u i) ^ 2 := by
    rw [dotProduct, sum_row_single]
    simp only [hGv, hu1, zero_div, add_zero]
    rw [sq (∑ i, u i * u i), ← mul_assoc, Finset.mul_sum (s := Finset.univ) (a := K ^ 2 * ∑ i, u i * u i)]
    exact Finset.sum_congr rfl fun i _ => by ring
  have gy : (fun r : Row 1 m 1 => y r.2.1) ⬝ᵥ (G *ᵥ (fun r : Row 1 m 1 => y r.2.1)) = 0 := by
    rw [dotProduct, sum_row_single]
    simp only [hGv, hy1, hy2, zero_div, add_zero, mul_zero, Finset.sum_const_zero]
  rw [q, q, eu, ey, gu, gy]
  set a := ∑ i, u i * u i
  set b := ∑ i, y i * y i
  have hB : B ≤ |B| := le_abs_self B
  have e1 : K ^ 2 * a ^ 2 = (|B| * lam + 1) * a := by rw [← hK2]; ring
  rw [e1]
  have h1 : 0 < a * b := mul_pos huu hyy
  have h2 : B * lam ≤ |B| * lam := mul_le_mul_of_nonneg_right hB hl0.le
  have h3 : B * lam * (a * b) ≤ |B| * lam * (a * b) := mul_le_mul_of_nonneg_right h2 h1.le
  nlinarith [mul_pos hl0 h1]

theorem norm2_normalized {ι : Type} [Fintype ι] (v : ι → ℝ) :
    (fun i => v i / norm2 v) ⬝ᵥ (fun i => v i / norm2 v) ≤ 1 := by
  have h : (fun i => v i / norm2 v) ⬝ᵥ (fun i => v i / norm2 v) = (∑ i, v i ^ 2) / norm2 v ^ 2 := by
    rw [dotProduct, Finset.sum_div]
    exact Finset.sum_congr rfl fun i _ => by rw [div_mul_div_comm]; ring
  rw [h, norm2, Real.sq_sqrt (Finset.sum_nonneg fun i _ => sq_nonneg _)]
  exact div_self_le_one _

/-- C79: the damping is never raised beyond what the largest eigenvalue `E` requires. -/
theorem c79_no_excess (C : Config) (hC : Spec.Valid C) (c : ℝ) (hc : C.maxCond = some c) (v0 : Row dev m k → ℝ)
    (G : Matrix (Row dev m k) (Row dev m k) ℝ) (E : ℝ) (hE : 0 ≤ E) (hG : ∀ x : Row dev m k → ℝ, x ⬝ᵥ (G *ᵥ x) ≤ E * (x ⬝ᵥ x)) (t : ℕ) :
    lamOf C v0 G t ≤ max (C.damping t) (E / (c - 1)) := by
  have hc1 := hC.cond c hc
  have hp : powerIteration G v0 10 ≤ E := by
    unfold powerIteration
    refine (hG _).trans ?_
    rw [Function.iterate_succ_apply']
    calc _ ≤ E * 1 := mul_le_mul_of_nonneg_left (norm2_normalized _) hE
      _ = E := mul_one E
  simp only [lamOf, hc, requiredDamping]
  refine max_le_max le_rfl (max_le ?_ ?_)
  · exact div_le_div_of_nonneg_right hp (by linarith)
  · exact div_nonneg hE (by linarith)

/-! ### Concrete cases -/

/-- The defaults of `SROptimizer`, sr.py:71-103, with a constant learning rate. -/
noncomputable def defaults : Config :=
  ⟨fun _ => 1 / 1000, some (10 ^ 7), .sqrt, some fun _ => 9 / 10, some fun _ => 995 / 1000, true, 1 / 10 ^ 8, none, some 4⟩

example : Spec.Valid defaults ∧ (∀ t, defaults.eps ≤ defaults.damping t) := by
  refine ⟨⟨?_, ?_, ?_, ?_, ?_, ?_⟩, ?_⟩
  · norm_num [defaults]
  · intro c h; simp [defaults] at h
  · intro b h t; simp only [defaults, Option.some.injEq] at h; rw [← h]; norm_num
  · intro n h; simp only [defaults, Option.some.injEq] at h; omega
  · intro t; norm_num [defaults]
  · intro c h; simp only [defaults, Option.some.injEq] at h; rw [← h]; norm_num
  · intro t; norm_num [defaults]

/-- Two real samples with scores 1 and -1. -/
def twoSamples : Raw 1 2 1 1 := fun _ i _ _ => if i = 0 then 1 else -1

/-- Standard SR without extensions and damping 1. -/
noncomputable def plain : Config := ⟨fun _ => 1, none, .standard, none, none, true, 1 / 10 ^ 8, none, none⟩

theorem plain_valid : Spec.Valid plain :=
  ⟨by norm_num [plain], by intro c h; simp [plain] at h, by intro c h; simp [plain] at h, by intro c h; simp [plain] at h,
    by intro t; norm_num [plain], by intro c h; simp [plain] at h⟩

/-- For these the Fisher matrix is 1, and a gradient of 6 gives a step of 3. -/
example (v0 : Row 1 2 1 → ℝ) : (update plain v0 twoSamples (fun _ => 6) (init 1)).1 = fun _ => 3 := by
  have hF : Spec.fisher none twoSamples = 1 := by
    ext i j
    have : i = j := Subsingleton.elim _ _
    subst this
    simp only [Spec.fisher, Spec.O, Spec.clipped, twoSamples, sum_row_single, Fin.sum_univ_two, Matrix.one_apply_eq, Fintype.sum_unique]
    norm_num
    rw [← mul_inv, Real.mul_self_sqrt (by norm_num)]
    rw [div_mul_div_comm, Real.mul_self_sqrt (by norm_num)]; norm_num
  obtain ⟨lam, -, h2, h3, h4⟩ := c76_step plain plain_valid (fun t => by norm_num [plain]) (fun _ => 1) .none (init 1, 0) .init
    one_pos two_pos (Or.inl rfl) v0 twoSamples (fun _ => 6)
  have hl : lam = 1 := h2 rfl
  subst hl
  rw [h4]
  have e := c76_mode 1 1 1 1 1 0 one_pos zero_le_one (by
    have := h3; simpa [plain, hF, Spec.metric] using this) (fun _ : Fin 1 => (6 : ℝ)) (by simp)
  have hp : Spec.momentum plain (init 1) = 0 := by funext j; simp [Spec.momentum, plain]
  simp only [plain, hF, Spec.metric, Spec.gamma] at *
  rw [hp]
  simp only [one_mulVec, zero_smul] at e
  norm_num at e ⊢
  rw [e]
  funext j; simp; norm_num

example (v0 : Row 1 2 1 → ℝ) : ∑ j, (fun _ : Fin 1 => (6 : ℝ)) j * (step plain (fun _ => 1) .fixed v0 twoSamples (fun _ => 6) (init 1, 0)).1 j < 0 :=
  c77_descent plain plain_valid rfl _ (fun _ => one_pos) .fixed (fun f h => by simp at h) _ .init one_pos two_pos (Or.inl rfl) v0 twoSamples _
    (fun h => by simpa using congrFun h 0)

/-- Two samples on one device or one sample on each of two devices, with and without chunks. -/
example (v0 : Row 1 2 1 → ℝ) (v0' : Row 2 1 1 → ℝ) (g : Fin 1 → ℝ) :
    step { plain with chunks := some 3 } (fun _ => 1) .fixed v0' (fun d _ _ _ => if d = 0 then 1 else -1) g (init 1, 0) =
      step plain (fun _ => 1) .fixed v0 twoSamples g (init 1, 0) :=
  c78_split plain plain_valid rfl (some 3) (fun n h => by simp only [Option.some.injEq] at h; omega) _ .fixed _ .init one_pos two_pos two_pos
    one_pos (Or.inl rfl) _ _ (Equiv.prodComm _ _) (fun x => rfl) _ _ g

/-- Two samples with scores ±1: the Gram matrix is the identity and the power iteration finds its eigenvalue, so the
hypothesis of `c79_condition_partial` holds, here with a prescribed condition number of 2. -/
example (st : State 1) (hst : ∀ j, 0 ≤ st.accVar j) (x y : Row 1 2 1 → ℝ) :
    let C := { plain with maxCond := some 2 }
    let raw : Raw 1 2 1 1 := fun _ i _ _ => Real.sqrt (2 : ℕ) * (1 / Real.sqrt 2) * (if i = 0 then 1 else -1)
    let F := system C (fun _ => 1) (score C.clip raw) (scaleOf C (score C.clip raw) st) st.counter
    (x ⬝ᵥ (F *ᵥ x)) * (y ⬝ᵥ y) ≤ 2 * (y ⬝ᵥ (F *ᵥ y)) * (x ⬝ᵥ x) := by
  intro C raw
  have hC : Spec.Valid C := ⟨by norm_num [C, plain], by intro c h; simp [C, plain] at h, by intro c h; simp [C, plain] at h,
    by intro c h; simp [C, plain] at h, by intro t; norm_num [C, plain], by
      intro c h; simp only [C, Option.some.injEq] at h; rw [← h]; norm_num⟩
  have hG : lift (gram C.chunks (score C.clip raw) (scaleOf C (score C.clip raw) st)) = 1 := by
    ext r t
    have h := lift_single two_pos C hC rfl rfl st (1 / Real.sqrt 2) (fun i => if i = 0 then 1 else -1) (by simp) r t
    refine h.trans ?_
    have h2 : (1 / Real.sqrt 2) ^ 2 = 1 / 2 := by rw [div_pow, Real.sq_sqrt (by norm_num)]; norm_num
    rw [h2]
    obtain ⟨d, i, a⟩ := r
    obtain ⟨d', i', a'⟩ := t
    obtain rfl : d = d' := Subsingleton.elim _ _
    obtain rfl : a = a' := Subsingleton.elim _ _
    fin_cases i <;> fin_cases i' <;> norm_num [Matrix.one_apply]
  refine c79_condition_partial C hC 2 rfl one_pos two_pos (Or.inl rfl) (fun _ => 1) raw st hst ?_ x y
  intro z
  rw [hG]
  have hn : norm2 (fun _ : Row 1 2 1 => (1 : ℝ)) = Real.sqrt 2 := by rw [norm2, sum_row_single]; simp
  have hn2 : norm2 (fun _ : Row 1 2 1 => 1 / Real.sqrt 2) = 1 := by
    rw [norm2, sum_row_single]; simp
  have hp : powerIteration (1 : Matrix (Row 1 2 1) (Row 1 2 1) ℝ) (fun _ => 1) 10 = 1 := by
    unfold powerIteration
    have hfix : (fun v : Row 1 2 1 → ℝ => fun i => ((1 : Matrix (Row 1 2 1) (Row 1 2 1) ℝ) *ᵥ v) i / norm2 ((1 : Matrix (Row 1 2 1) (Row 1 2 1) ℝ) *ᵥ v))
        (fun _ => 1 / Real.sqrt 2) = fun _ => 1 / Real.sqrt 2 := by
      simp only [one_mulVec, hn2, div_one]
    simp only [hn]
    rw [Function.iterate_fixed hfix, one_mulVec, dotProduct, sum_row_single]
    simp only [Finset.sum_const, Finset.card_univ, Fintype.card_fin, nsmul_eq_mul]
    rw [div_mul_div_comm, Real.mul_self_sqrt (by norm_num)]; norm_num
  rw [hp, one_mulVec, one_mul]

/-- Three samples, condition number 2 prescribed, start vector (1, 1, 1): more than a million is possible. -/
example (st : State 1) : ∃ (raw : Raw 1 3 1 1) (x y : Row 1 3 1 → ℝ), x ≠ 0 ∧ y ≠ 0 ∧
    let C := { plain with maxCond := some 2 }
    10 ^ 6 * (y ⬝ᵥ (system C (fun _ => 1) (score none raw) (scaleOf C (score none raw) st) st.counter *ᵥ y)) * (x ⬝ᵥ x) <
        (x ⬝ᵥ (system C (fun _ => 1) (score none raw) (scaleOf C (score none raw) st) st.counter *ᵥ x)) * (y ⬝ᵥ y) :=
  c79_exceeds (m := 3) le_rfl { plain with maxCond := some 2 }
    ⟨by norm_num [plain], by intro c h; simp [plain] at h, by intro c h; simp [plain] at h, by intro c h; simp [plain] at h,
    by intro t; norm_num [plain], by intro c h; simp only [Option.some.injEq] at h; rw [← h]; norm_num⟩ rfl rfl 2 rfl (fun _ => 1) (by simp) st (10 ^ 6)

end Jaqmc.SR.Props
