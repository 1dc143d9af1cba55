import Verif.Props.SphereKinetic
/-! C70 (angular momentum on the sphere). -/
namespace Jaqmc.Kinetic.Props
open Filter Topology Spec Laplacian.Spec Hall
open scoped BigOperators ContDiff

variable {n : ℕ}

/-- The differential term with Mathlib's derivative. -/
noncomputable def dT (G : Conf n → ℂ) (k : Fin 3) (x : Conf n) : ℂ :=
  ∑ i, -Complex.I * ((phiHat (x i) k : ℂ) * D (eTheta i) G x - (thetaHat (x i) k : ℂ) * D (ePhi i) G x)

theorem diffTerm_eq {G : Conf n → ℂ} {x : Conf n} (hG : DifferentiableAt ℝ G x) (k : Fin 3) : diffTerm G k x = dT G k x := by
  unfold diffTerm dT
  simp only [pdC_eq _ hG]

theorem thetaHat_eq (e : Angles) (k : Fin 3) :
    thetaHat e k = ![Real.cos e.1 / Real.sin e.1 * Real.cos e.2, Real.cos e.1 / Real.sin e.1 * Real.sin e.2, -1] k := by
  have ht : ∀ a : ℝ, a / Real.tan e.1 = Real.cos e.1 / Real.sin e.1 * a := fun a => by rw [← tan_inv]; ring
  fin_cases k <;> simp [thetaHat, ht]

/-- The operator of the specification on a differentiable function. -/
theorem angular_eq (Q : ℝ) (k : Fin 3) {F : Conf n → ℂ} {x : Conf n} (hF : DifferentiableAt ℝ F x) (hs : ∀ i, Real.sin (x i).1 ≠ 0) :
    angular Q k F x = dT F k x + magTerm Q k x * F x := by
  unfold angular dT magTerm
  rw [Finset.mul_sum, Finset.sum_mul, ← Finset.sum_add_distrib]
  refine Finset.sum_congr rfl fun i _ => ?_
  rw [magHat_eq _ (hs i), thetaHat_eq]
  fin_cases k
  · simp only [Fin.zero_eta, Matrix.cons_val_zero, phiHat, dTheta_eq i hF, dPhi_eq i hF]
    push_cast
    ring
  · simp only [Fin.mk_one, Matrix.cons_val_one, Matrix.cons_val_zero, phiHat, dTheta_eq i hF, dPhi_eq i hF]
    push_cast
    ring
  · simp only [Fin.reduceFinMk, dPhi_eq i hF]
    simp [phiHat]

theorem sin_eventually {x : Conf n} (hs : ∀ i, Real.sin (x i).1 ≠ 0) : ∀ᶠ y in 𝓝 x, ∀ i, Real.sin (y i).1 ≠ 0 := by
  rw [Filter.eventually_all]
  intro i
  have : Continuous fun y : Conf n => Real.sin (y i).1 := Real.continuous_sin.comp (continuous_fst.comp (continuous_apply i))
  exact this.continuousAt.eventually_ne (hs i)

theorem angular_congr (Q : ℝ) (k : Fin 3) {F G : Conf n → ℂ} {x : Conf n} (h : F =ᶠ[𝓝 x] G) : angular Q k F x = angular Q k G x := by
  unfold angular
  refine Finset.sum_congr rfl fun i _ => ?_
  fin_cases k <;> simp only [dTheta_congr i h, dPhi_congr i h, h.self_of_nhds]

section
variable (Q : ℝ) {f : Conf n → ℂ} {x : Conf n} (hf : ContDiffAt ℝ 2 f x) (hs : ∀ i, Real.sin (x i).1 ≠ 0)
include hf hs

/-- The local value of `L_k`: `(L_k ψ) / ψ`, with Mathlib's derivative. -/
noncomputable def ell (f : Conf n → ℂ) (k : Fin 3) (y : Conf n) : ℂ := dT f k y + magTerm Q k y

/-- One summand of `ell`. -/
noncomputable def ellTerm (f : Conf n → ℂ) (k : Fin 3) (j : Fin n) (y : Conf n) : ℂ :=
  -Complex.I * ((phiHat (y j) k : ℂ) * D (eTheta j) f y - (thetaHat (y j) k : ℂ) * D (ePhi j) f y) + Q * (magHat (y j) k : ℂ)

omit hf hs in
theorem ell_sum (k : Fin 3) (y : Conf n) : ell Q f k y = ∑ j, ellTerm Q f k j y := by
  unfold ell dT magTerm ellTerm
  rw [Finset.mul_sum, ← Finset.sum_add_distrib]

theorem diff_ellTerm (k : Fin 3) (j : Fin n) : DifferentiableAt ℝ (ellTerm Q f k j) x := by
  have h1 := diff_coord j (partials_phiHat (x j) k).diff
  have h2 := diff_coord j (partials_thetaHat (x j) (hs j) k).diff
  have h3 := diff_coord j (partials_magHat (x j) (hs j) k).diff
  exact (((h1.fun_mul (diff_D hf _)).fun_sub (h2.fun_mul (diff_D hf _))).const_mul _).fun_add (h3.const_mul _)

theorem diff_ell (k : Fin 3) : DifferentiableAt ℝ (ell Q f k) x := by
  rw [show ell Q f k = fun y => ∑ j, ellTerm Q f k j y from funext fun y => ell_sum Q k y]
  exact DifferentiableAt.fun_sum fun j _ => diff_ellTerm Q hf hs k j

theorem D_ellTerm (k : Fin 3) (j : Fin n) (d : Conf n) : D d (ellTerm Q f k j) x =
    -Complex.I * (D d (fun y => (phiHat (y j) k : ℂ)) x * D (eTheta j) f x + (phiHat (x j) k : ℂ) * D d (D (eTheta j) f) x
      - (D d (fun y => (thetaHat (y j) k : ℂ)) x * D (ePhi j) f x + (thetaHat (x j) k : ℂ) * D d (D (ePhi j) f) x))
      + Q * D d (fun y => (magHat (y j) k : ℂ)) x := by
  have h1 := diff_coord j (partials_phiHat (x j) k).diff
  have h2 := diff_coord j (partials_thetaHat (x j) (hs j) k).diff
  have h3 := diff_coord j (partials_magHat (x j) (hs j) k).diff
  have h4 := h1.fun_mul (diff_D hf (eTheta j))
  have h5 := h2.fun_mul (diff_D hf (ePhi j))
  unfold ellTerm
  rw [D_add _ ((h4.fun_sub h5).const_mul _) (h3.const_mul _), D_const_mul _ _ (h4.fun_sub h5), D_const_mul _ _ h3, D_sub _ h4 h5,
    D_mul _ h1 (diff_D hf _), D_mul _ h2 (diff_D hf _)]

theorem D_ell (k : Fin 3) (d : Conf n) : D d (ell Q f k) x = ∑ j, D d (ellTerm Q f k j) x := by
  rw [show ell Q f k = fun y => ∑ j, ellTerm Q f k j y from funext fun y => ell_sum Q k y]
  exact D_sum _ _ fun j _ => diff_ellTerm Q hf hs k j

/-- `L_k ψ = ψ ℓ_k` near the point, and `L_k L_k ψ = ψ (D_k ℓ_k + ℓ_k²)`. -/
theorem angular_psi (k : Fin 3) :
    angular Q k (fun y => Complex.exp (f y)) x = Complex.exp (f x) * ell Q f k x ∧
    angular Q k (angular Q k fun y => Complex.exp (f y)) x = Complex.exp (f x) * (dT (ell Q f k) k x + ell Q f k x ^ 2) := by
  set ψ : Conf n → ℂ := fun y => Complex.exp (f y) with hψ
  have hD : ∀ᶠ y in 𝓝 x, DifferentiableAt ℝ ψ y ∧ ∀ d, D d ψ y = ψ y * D d f y := by
    filter_upwards [eventually_diff hf] with y hy
    have := fun d => D_exp Complex.exp Complex.hasDerivAt_exp 1 hy d
    simp only [one_mul] at this
    exact ⟨(this 0).1, fun d => (this d).2⟩
  have h1 : ∀ᶠ y in 𝓝 x, angular Q k ψ y = ψ y * ell Q f k y := by
    filter_upwards [hD, sin_eventually hs] with y hy hsy
    rw [angular_eq Q k hy.1 hsy]
    unfold ell dT
    simp only [hy.2]
    rw [mul_add, Finset.mul_sum]
    congr 1
    · exact Finset.sum_congr rfl fun i _ => by ring
    · ring
  refine ⟨h1.self_of_nhds, ?_⟩
  have hl := diff_ell Q hf hs k
  obtain ⟨hdψ, hDψ⟩ := hD.self_of_nhds
  have hprod : DifferentiableAt ℝ (fun y => ψ y * ell Q f k y) x := hdψ.fun_mul hl
  rw [angular_congr Q k h1, angular_eq Q k hprod hs]
  have : dT (fun y => ψ y * ell Q f k y) k x = ψ x * (dT f k x * ell Q f k x + dT (ell Q f k) k x) := by
    unfold dT
    rw [Finset.sum_mul, ← Finset.sum_add_distrib, Finset.mul_sum]
    refine Finset.sum_congr rfl fun i _ => ?_
    rw [D_mul _ hdψ hl, D_mul _ hdψ hl, hDψ, hDψ]
    ring
  rw [this]
  have : ell Q f k x = dT f k x + magTerm Q k x := rfl
  rw [this]
  show _ + _ * (ψ x * ell Q f k x) = _
  rw [this]
  ring

theorem angularForward_eq : angularForward Q f x = ⟨(ell Q f 2 x).re, (dT (ell Q f 2) 2 x + ell Q f 2 x ^ 2).re,
    (∑ k, (dT (ell Q f k) k x + ell Q f k x ^ 2)).re⟩ := by
  have h1 : ∀ k, (fun y => diffTerm f k y + magTerm Q k y) =ᶠ[𝓝 x] ell Q f k := fun k => by
    filter_upwards [eventually_diff hf] with y hy
    rw [diffTerm_eq hy]; rfl
  have h2 : ∀ k, diffTerm (fun y => diffTerm f k y + magTerm Q k y) k x = dT (ell Q f k) k x := by
    intro k
    have hd : DifferentiableAt ℝ (fun y => diffTerm f k y + magTerm Q k y) x := (h1 k).differentiableAt_iff.2 (diff_ell Q hf hs k)
    rw [diffTerm_eq hd]
    unfold dT
    simp only [D_congr _ (h1 k)]
  unfold angularForward
  simp only [h2, (h1 _).self_of_nhds]

end

/-- The value of an operator divided by the wavefunction, in a form without division: `v ψ = w`. -/
theorem div_of_mul {w ψ v : ℂ} (h : w = ψ * v) (hψ : ψ ≠ 0) : w / ψ = v := by rw [h, mul_div_cancel_left₀ _ hψ]

/-- C70 (forward-Laplacian mode): away from the poles the three statistics are the real parts of `L_z ψ / ψ`, `L_z² ψ / ψ` and
`L² ψ / ψ` for `ψ = exp(log psi)`. -/
theorem c70_forward (Q : ℝ) (f : Conf n → ℂ) (x : Conf n) (hf : ContDiffAt ℝ 2 f x) (hs : ∀ i, Real.sin (x i).1 ≠ 0) :
    let ψ := fun y => Complex.exp (f y)
    let s := angularForward Q f x
    s.z = (angular Q 2 ψ x / ψ x).re ∧ s.zSquare = (angular Q 2 (angular Q 2 ψ) x / ψ x).re ∧
    s.square = ((∑ k, angular Q k (angular Q k ψ) x) / ψ x).re := by
  intro ψ s
  have h := angular_psi Q hf hs
  have hψ : ψ x ≠ 0 := Complex.exp_ne_zero _
  have hs' : s = _ := angularForward_eq Q hf hs
  rw [hs']
  refine ⟨?_, ?_, ?_⟩
  · rw [div_of_mul (h 2).1 hψ]
  · rw [div_of_mul (h 2).2 hψ]
  · rw [Finset.sum_div]
    show (∑ k, _ : ℂ).re = _
    congr 1
    exact Finset.sum_congr rfl fun k _ => (div_of_mul (h k).2 hψ).symm

theorem double_sum_eq {A B : Fin n → Fin n → ℂ} (h : ∀ i j, A i j + A j i = B i j + B j i) : ∑ i, ∑ j, A i j = ∑ i, ∑ j, B i j := by
  have e : ∀ C : Fin n → Fin n → ℂ, ∑ i, ∑ j, C i j = 1 / 2 * ∑ i, ∑ j, (C i j + C j i) := by
    intro C
    have : ∑ i, ∑ j, C j i = ∑ i, ∑ j, C i j := Finset.sum_comm
    simp only [Finset.sum_add_distrib]
    rw [this]; ring
  rw [e A, e B]
  simp only [h]

/-- The sum over components of the terms with a derivative of the coefficients. -/
theorem diag_sum (Q : ℝ) (e : Angles) (h : Real.sin e.1 ≠ 0) (T P : ℂ) :
    ∑ k : Fin 3, (-Complex.I * ((phiHat e k : ℂ) * (-Complex.I * (0 * T - ((![-(1 / Real.sin e.1 ^ 2) * Real.cos e.2, -(1 / Real.sin e.1 ^ 2) * Real.sin e.2, 0] k : ℝ) : ℂ) * P)
        + Q * ((![-(Real.cos e.1 / Real.sin e.1 ^ 2) * Real.cos e.2, -(Real.cos e.1 / Real.sin e.1 ^ 2) * Real.sin e.2, 0] k : ℝ) : ℂ))
      - (thetaHat e k : ℂ) * (-Complex.I * (((![-Real.cos e.2, -Real.sin e.2, 0] k : ℝ) : ℂ) * T - ((![Real.cos e.1 / Real.sin e.1 * -Real.sin e.2, Real.cos e.1 / Real.sin e.1 * Real.cos e.2, 0] k : ℝ) : ℂ) * P)
        + Q * ((![1 / Real.sin e.1 * -Real.sin e.2, 1 / Real.sin e.1 * Real.cos e.2, 0] k : ℝ) : ℂ)))) = -(T / (Real.tan e.1 : ℂ)) := by
  rw [tan_div]
  simp only [thetaHat_eq, phiHat, Fin.sum_univ_three, Matrix.cons_val_zero, Matrix.cons_val_one, Matrix.cons_val]
  have hs' : (Real.sin e.1 : ℂ) ≠ 0 := by exact_mod_cast h
  have h2 : (Real.sin e.2 : ℂ) ^ 2 + (Real.cos e.2 : ℂ) ^ 2 = 1 := by exact_mod_cast Real.sin_sq_add_cos_sq e.2
  push_cast at hs' h2 ⊢
  field_simp
  linear_combination (-(Complex.cos e.1 * T) * Complex.sin e.1 ) * h2
    + (T * Complex.sin e.1 * Complex.cos e.1 * (Complex.sin e.2 ^ 2 + Complex.cos e.2 ^ 2)) * Complex.I_sq

section
variable (Q : ℝ) {f : Conf n → ℂ} {x : Conf n} (hf : ContDiffAt ℝ 2 f x) (hs : ∀ i, Real.sin (x i).1 ≠ 0)
include hf hs

/-- `ℓ_k` differentiated: the second derivatives of `f` and, on the diagonal, the derivatives of the coefficients. -/
theorem dT_ell (k : Fin 3) : dT (ell Q f k) k x =
    (∑ i, ∑ j, -Complex.I * ((phiHat (x i) k : ℂ) * (-Complex.I * ((phiHat (x j) k : ℂ) * D (eTheta i) (D (eTheta j) f) x - (thetaHat (x j) k : ℂ) * D (eTheta i) (D (ePhi j) f) x))
      - (thetaHat (x i) k : ℂ) * (-Complex.I * ((phiHat (x j) k : ℂ) * D (ePhi i) (D (eTheta j) f) x - (thetaHat (x j) k : ℂ) * D (ePhi i) (D (ePhi j) f) x))))
    + ∑ i, (-Complex.I * ((phiHat (x i) k : ℂ) * (-Complex.I * (0 * D (eTheta i) f x - ((![-(1 / Real.sin (x i).1 ^ 2) * Real.cos (x i).2, -(1 / Real.sin (x i).1 ^ 2) * Real.sin (x i).2, 0] k : ℝ) : ℂ) * D (ePhi i) f x)
        + Q * ((![-(Real.cos (x i).1 / Real.sin (x i).1 ^ 2) * Real.cos (x i).2, -(Real.cos (x i).1 / Real.sin (x i).1 ^ 2) * Real.sin (x i).2, 0] k : ℝ) : ℂ))
      - (thetaHat (x i) k : ℂ) * (-Complex.I * (((![-Real.cos (x i).2, -Real.sin (x i).2, 0] k : ℝ) : ℂ) * D (eTheta i) f x - ((![Real.cos (x i).1 / Real.sin (x i).1 * -Real.sin (x i).2, Real.cos (x i).1 / Real.sin (x i).1 * Real.cos (x i).2, 0] k : ℝ) : ℂ) * D (ePhi i) f x)
        + Q * ((![1 / Real.sin (x i).1 * -Real.sin (x i).2, 1 / Real.sin (x i).1 * Real.cos (x i).2, 0] k : ℝ) : ℂ)))) := by
  unfold dT
  rw [← Finset.sum_add_distrib]
  refine Finset.sum_congr rfl fun i _ => ?_
  have split : ∀ (u v : Fin n → ℂ), (∑ j, (u j + if i = j then v j else 0)) = (∑ j, u j) + v i := by
    intro u v
    rw [Finset.sum_add_distrib, Finset.sum_ite_eq]; simp
  have e1 : D (eTheta i) (ell Q f k) x = (∑ j, -Complex.I * ((phiHat (x j) k : ℂ) * D (eTheta i) (D (eTheta j) f) x - (thetaHat (x j) k : ℂ) * D (eTheta i) (D (ePhi j) f) x))
      + (-Complex.I * (0 * D (eTheta i) f x - ((![-(1 / Real.sin (x i).1 ^ 2) * Real.cos (x i).2, -(1 / Real.sin (x i).1 ^ 2) * Real.sin (x i).2, 0] k : ℝ) : ℂ) * D (ePhi i) f x)
        + Q * ((![-(Real.cos (x i).1 / Real.sin (x i).1 ^ 2) * Real.cos (x i).2, -(Real.cos (x i).1 / Real.sin (x i).1 ^ 2) * Real.sin (x i).2, 0] k : ℝ) : ℂ)) := by
    rw [D_ell Q hf hs, ← split _ (fun j => (-Complex.I * (0 * D (eTheta j) f x - ((![-(1 / Real.sin (x j).1 ^ 2) * Real.cos (x j).2, -(1 / Real.sin (x j).1 ^ 2) * Real.sin (x j).2, 0] k : ℝ) : ℂ) * D (ePhi j) f x)
        + Q * ((![-(Real.cos (x j).1 / Real.sin (x j).1 ^ 2) * Real.cos (x j).2, -(Real.cos (x j).1 / Real.sin (x j).1 ^ 2) * Real.sin (x j).2, 0] k : ℝ) : ℂ)))]
    refine Finset.sum_congr rfl fun j _ => ?_
    rw [D_ellTerm Q hf hs, (partials_phiHat (x j) k).D_theta, (partials_thetaHat (x j) (hs j) k).D_theta, (partials_magHat (x j) (hs j) k).D_theta]
    split_ifs <;> ring
  have e2 : D (ePhi i) (ell Q f k) x = (∑ j, -Complex.I * ((phiHat (x j) k : ℂ) * D (ePhi i) (D (eTheta j) f) x - (thetaHat (x j) k : ℂ) * D (ePhi i) (D (ePhi j) f) x))
      + (-Complex.I * (((![-Real.cos (x i).2, -Real.sin (x i).2, 0] k : ℝ) : ℂ) * D (eTheta i) f x - ((![Real.cos (x i).1 / Real.sin (x i).1 * -Real.sin (x i).2, Real.cos (x i).1 / Real.sin (x i).1 * Real.cos (x i).2, 0] k : ℝ) : ℂ) * D (ePhi i) f x)
        + Q * ((![1 / Real.sin (x i).1 * -Real.sin (x i).2, 1 / Real.sin (x i).1 * Real.cos (x i).2, 0] k : ℝ) : ℂ)) := by
    rw [D_ell Q hf hs, ← split _ (fun j => (-Complex.I * (((![-Real.cos (x j).2, -Real.sin (x j).2, 0] k : ℝ) : ℂ) * D (eTheta j) f x - ((![Real.cos (x j).1 / Real.sin (x j).1 * -Real.sin (x j).2, Real.cos (x j).1 / Real.sin (x j).1 * Real.cos (x j).2, 0] k : ℝ) : ℂ) * D (ePhi j) f x)
        + Q * ((![1 / Real.sin (x j).1 * -Real.sin (x j).2, 1 / Real.sin (x j).1 * Real.cos (x j).2, 0] k : ℝ) : ℂ)))]
    refine Finset.sum_congr rfl fun j _ => ?_
    rw [D_ellTerm Q hf hs, (partials_phiHat (x j) k).D_phi, (partials_thetaHat (x j) (hs j) k).D_phi, (partials_magHat (x j) (hs j) k).D_phi]
    split_ifs <;> ring
  have pull : ∀ (c p q : ℂ) (A B : Fin n → ℂ), ∑ j, c * (p * A j - q * B j) = c * (p * ∑ j, A j - q * ∑ j, B j) := by
    intro c p q A B
    rw [← Finset.mul_sum, Finset.sum_sub_distrib, ← Finset.mul_sum, ← Finset.mul_sum]
  rw [e1, e2, pull]
  ring

/-- The two modes report the same statistics. -/
theorem angularHessian_eq : angularHessian Q f x = angularForward Q f x := by
  have hd := (eventually_diff hf).self_of_nhds
  rw [angularForward_eq Q hf hs]
  have hz : ell Q f 2 x = -Complex.I * ∑ i, D (ePhi i) f x := by
    rw [ell_sum, Finset.mul_sum]
    refine Finset.sum_congr rfl fun i _ => ?_
    unfold ellTerm
    rw [magHat_eq _ (hs i), thetaHat_eq]
    simp [phiHat]
  have hell : ∀ k, ell Q f k x = ∑ i, (-Complex.I * ((phiHat (x i) k : ℂ) * D (eTheta i) f x - (thetaHat (x i) k : ℂ) * D (ePhi i) f x) + Q * (magHat (x i) k : ℂ)) :=
    fun k => ell_sum Q k x
  have hk : ∀ k, dT (ell Q f k) k x + ell Q f k x ^ 2 = (∑ i, ∑ j,
      (2 * (phiHat (x i) k : ℂ) * thetaHat (x j) k * (D (ePhi j) (D (eTheta i) f) x + D (eTheta i) f x * D (ePhi j) f x)
        - (phiHat (x i) k : ℂ) * phiHat (x j) k * (D (eTheta j) (D (eTheta i) f) x + D (eTheta i) f x * D (eTheta j) f x)
        - (thetaHat (x i) k : ℂ) * thetaHat (x j) k * (D (ePhi j) (D (ePhi i) f) x + D (ePhi i) f x * D (ePhi j) f x)
        - 2 * Complex.I * ((Q * magHat (x j) k : ℝ) : ℂ) * ((phiHat (x i) k : ℂ) * D (eTheta i) f x - (thetaHat (x i) k : ℂ) * D (ePhi i) f x)
        + ((Q * magHat (x i) k : ℝ) : ℂ) * ((Q * magHat (x j) k : ℝ) : ℂ)))
    + ∑ i, (-Complex.I * ((phiHat (x i) k : ℂ) * (-Complex.I * (0 * D (eTheta i) f x - ((![-(1 / Real.sin (x i).1 ^ 2) * Real.cos (x i).2, -(1 / Real.sin (x i).1 ^ 2) * Real.sin (x i).2, 0] k : ℝ) : ℂ) * D (ePhi i) f x)
        + Q * ((![-(Real.cos (x i).1 / Real.sin (x i).1 ^ 2) * Real.cos (x i).2, -(Real.cos (x i).1 / Real.sin (x i).1 ^ 2) * Real.sin (x i).2, 0] k : ℝ) : ℂ))
      - (thetaHat (x i) k : ℂ) * (-Complex.I * (((![-Real.cos (x i).2, -Real.sin (x i).2, 0] k : ℝ) : ℂ) * D (eTheta i) f x - ((![Real.cos (x i).1 / Real.sin (x i).1 * -Real.sin (x i).2, Real.cos (x i).1 / Real.sin (x i).1 * Real.cos (x i).2, 0] k : ℝ) : ℂ) * D (ePhi i) f x)
        + Q * ((![1 / Real.sin (x i).1 * -Real.sin (x i).2, 1 / Real.sin (x i).1 * Real.cos (x i).2, 0] k : ℝ) : ℂ)))) := by
    intro k
    rw [dT_ell Q hf hs, add_right_comm, hell]
    congr 1
    rw [pow_two, Finset.sum_mul_sum, ← Finset.sum_add_distrib]
    simp only [← Finset.sum_add_distrib]
    refine double_sum_eq fun i j => ?_
    rw [D_symm hf (eTheta i) (eTheta j), D_symm hf (ePhi i) (ePhi j), D_symm hf (eTheta i) (ePhi j), D_symm hf (eTheta j) (ePhi i)]
    push_cast
    ring_nf
    simp only [Complex.I_sq]
    ring
  have hz2 : dT (ell Q f 2) 2 x + ell Q f 2 x ^ 2 = -∑ i, ∑ j, (D (ePhi j) (D (ePhi i) f) x + D (ePhi i) f x * D (ePhi j) f x) := by
    have := hk 2
    have e0 : ∀ i, (magHat (x i) 2 : ℝ) = 0 := fun i => by rw [magHat_eq _ (hs i)]; rfl
    have e1 : ∀ i, (phiHat (x i) 2 : ℝ) = 0 := fun i => rfl
    have e2 : ∀ i, (thetaHat (x i) 2 : ℝ) = -1 := fun i => rfl
    simp only [e0, e1, e2, Matrix.cons_val] at this
    simp at this
    rw [this, ← Finset.sum_neg_distrib]
    refine Finset.sum_congr rfl fun i _ => ?_
    rw [← Finset.sum_neg_distrib]
    exact Finset.sum_congr rfl fun j _ => by ring
  have hsq : (∑ k, (dT (ell Q f k) k x + ell Q f k x ^ 2)) = (∑ k : Fin 3, ∑ i, ∑ j,
      (2 * (phiHat (x i) k : ℂ) * thetaHat (x j) k * (D (ePhi j) (D (eTheta i) f) x + D (eTheta i) f x * D (ePhi j) f x)
        - (phiHat (x i) k : ℂ) * phiHat (x j) k * (D (eTheta j) (D (eTheta i) f) x + D (eTheta i) f x * D (eTheta j) f x)
        - (thetaHat (x i) k : ℂ) * thetaHat (x j) k * (D (ePhi j) (D (ePhi i) f) x + D (ePhi i) f x * D (ePhi j) f x)
        - 2 * Complex.I * ((Q * magHat (x j) k : ℝ) : ℂ) * ((phiHat (x i) k : ℂ) * D (eTheta i) f x - (thetaHat (x i) k : ℂ) * D (ePhi i) f x)
        + ((Q * magHat (x i) k : ℝ) : ℂ) * ((Q * magHat (x j) k : ℝ) : ℂ)))
      - ∑ i, D (eTheta i) f x / (Real.tan (x i).1 : ℂ) := by
    simp only [hk]
    rw [Finset.sum_add_distrib, sub_eq_add_neg, ← Finset.sum_neg_distrib]
    congr 1
    rw [Finset.sum_comm]
    exact Finset.sum_congr rfl fun i _ => diag_sum Q (x i) (hs i) _ _
  unfold angularHessian
  simp only [pdC_eq _ hd, hess_eq hf]
  rw [hsq, hz2, hz]
  simp

end

/-- C70 (Hessian modes): the same statistics as in the forward-Laplacian mode, so the real parts of `L_z ψ / ψ`, `L_z² ψ / ψ` and
`L² ψ / ψ`. -/
theorem c70_hessian (Q : ℝ) (f : Conf n → ℂ) (x : Conf n) (hf : ContDiffAt ℝ 2 f x) (hs : ∀ i, Real.sin (x i).1 ≠ 0) :
    let ψ := fun y => Complex.exp (f y)
    let s := angularHessian Q f x
    s.z = (angular Q 2 ψ x / ψ x).re ∧ s.zSquare = (angular Q 2 (angular Q 2 ψ) x / ψ x).re ∧
    s.square = ((∑ k, angular Q k (angular Q k ψ) x) / ψ x).re := by
  rw [angularHessian_eq Q hf hs]
  exact c70_forward Q f x hf hs

end Jaqmc.Kinetic.Props
