import Verif.Lemmas.SphereKinetic
import Verif.Props.Kinetic
/-! C69 (kinetic energy on the sphere), C70 (angular momentum). -/
namespace Jaqmc.Kinetic.Props
open Filter Topology Spec Laplacian.Spec Hall
open scoped BigOperators ContDiff

variable {n : ℕ}

theorem partials_sin (e : Angles) : Partials (fun e => (Real.sin e.1 : ℂ)) e (Real.cos e.1 : ℂ) 0 := by
  have := Partials.prod (v := fun _ => 1) (e := e) (Real.hasDerivAt_sin e.1) (hasDerivAt_const _ _)
  simpa using this

theorem partials_cos (e : Angles) : Partials (fun e => (Real.cos e.1 : ℂ)) e (-Real.sin e.1 : ℂ) 0 := by
  have := Partials.prod (v := fun _ => 1) (e := e) (Real.hasDerivAt_cos e.1) (hasDerivAt_const _ _)
  simpa using this

/-- `|Λ_i|²` applied to `ψ = exp(f)`, in terms of the derivatives of `f`. -/
theorem lambdaSq_exp (Q : ℝ) (f : Conf n → ℂ) (x : Conf n) (hf : ContDiffAt ℝ 2 f x) (i : Fin n) (hs : Real.sin (x i).1 ≠ 0) :
    lambdaSq Q i (fun y => Complex.exp (f y)) x = Complex.exp (f x) *
      (-(D (eTheta i) f x * (Real.cos (x i).1 / Real.sin (x i).1) + D (eTheta i) (D (eTheta i) f) x + D (eTheta i) f x ^ 2)
        + 1 / (Real.sin (x i).1 : ℂ) ^ 2 * ((Complex.I * D (ePhi i) f x + Q * Real.cos (x i).1) ^ 2 - D (ePhi i) (D (ePhi i) f) x)) := by
  set ψ : Conf n → ℂ := fun y => Complex.exp (f y) with hψ
  have hloc : ∀ᶠ y in 𝓝 x, ψ y = 1 * Complex.exp (f y) := Eventually.of_forall fun y => (one_mul _).symm
  have hs' : (Real.sin (x i).1 : ℂ) ≠ 0 := by exact_mod_cast hs
  obtain ⟨t1, _⟩ := D_psi Complex.exp Complex.hasDerivAt_exp 1 hf hloc (eTheta i) (eTheta i)
  obtain ⟨p1, _⟩ := D_psi Complex.exp Complex.hasDerivAt_exp 1 hf hloc (ePhi i) (ePhi i)
  have hdψ := t1.self_of_nhds.1
  have eT := t1.self_of_nhds.2
  have eP := p1.self_of_nhds.2
  -- the theta part
  have h1 : (fun y : Conf n => (Real.sin (y i).1 : ℂ) * dTheta i ψ y) =ᶠ[𝓝 x] fun y => (Real.sin (y i).1 : ℂ) * (ψ y * D (eTheta i) f y) := by
    filter_upwards [t1] with y hy
    rw [dTheta_eq i hy.1, hy.2]
  have hsin := partials_sin (x i)
  have hds : DifferentiableAt ℝ (fun y : Conf n => (Real.sin (y i).1 : ℂ)) x := diff_coord i hsin.diff
  have hdp : DifferentiableAt ℝ (fun y => ψ y * D (eTheta i) f y) x := hdψ.mul (diff_D hf _)
  have hT : dTheta i (fun y => (Real.sin (y i).1 : ℂ) * dTheta i ψ y) x
      = ψ x * (Real.cos (x i).1 * D (eTheta i) f x + Real.sin (x i).1 * (D (eTheta i) (D (eTheta i) f) x + D (eTheta i) f x ^ 2)) := by
    rw [dTheta_congr i h1, dTheta_eq i (hds.fun_mul hdp), D_mul _ hds hdp, hsin.D_theta, if_pos rfl, D_mul _ hdψ (diff_D hf _), eT]
    ring
  -- the phi part
  have h2 : piPhi Q i ψ =ᶠ[𝓝 x] fun y => ψ y * (Complex.I * D (ePhi i) f y + Q * (Real.cos (y i).1 : ℂ)) := by
    filter_upwards [p1] with y hy
    unfold piPhi
    rw [dPhi_eq i hy.1, hy.2]
    push_cast
    ring
  have hcos := partials_cos (x i)
  have hdc : DifferentiableAt ℝ (fun y : Conf n => (Real.cos (y i).1 : ℂ)) x := diff_coord i hcos.diff
  have hda : DifferentiableAt ℝ (fun y => Complex.I * D (ePhi i) f y) x := (diff_D hf _).const_mul _
  have hdb : DifferentiableAt ℝ (fun y : Conf n => (Q : ℂ) * (Real.cos (y i).1 : ℂ)) x := hdc.const_mul _
  have hP : piPhi Q i (piPhi Q i ψ) x = ψ x * ((Complex.I * D (ePhi i) f x + Q * Real.cos (x i).1) ^ 2 - D (ePhi i) (D (ePhi i) f) x) := by
    show Complex.I * dPhi i (piPhi Q i ψ) x + ((Q * Real.cos (x i).1 : ℝ) : ℂ) * piPhi Q i ψ x = _
    rw [dPhi_congr i h2, h2.self_of_nhds, dPhi_eq i (hdψ.fun_mul (hda.fun_add hdb)), D_mul _ hdψ (hda.fun_add hdb), D_add _ hda hdb,
      D_const_mul _ _ (diff_D hf _), D_const_mul _ _ hdc, hcos.D_phi, if_pos rfl, eP]
    push_cast
    linear_combination (ψ x * D (ePhi i) (D (ePhi i) f) x) * Complex.I_sq
  unfold lambdaSq
  rw [hT, hP]
  field_simp
  ring

theorem hess_eq {f : Conf n → ℂ} {x : Conf n} (hf : ContDiffAt ℝ 2 f x) (d d' : Conf n) : hess f x d d' = D d' (D d f) x := pd_pd d d' hf

theorem tan_div (a : ℂ) (t : ℝ) : a / (Real.tan t : ℂ) = a * (Real.cos t / Real.sin t) := by
  rw [Real.tan_eq_sin_div_cos]; push_cast; rw [div_div_eq_mul_div, mul_div_assoc]

/-- The formula of both modes. -/
theorem sphereFormula_eq (Q r : ℝ) (f : Conf n → ℂ) (x : Conf n) (hf : ContDiffAt ℝ 2 f x) (hs : ∀ i, Real.sin (x i).1 ≠ 0) :
    sphereFormula Q r x (fun i => D (eTheta i) f x) (fun i => D (ePhi i) f x)
        (∑ i, (D (eTheta i) (D (eTheta i) f) x + D (ePhi i) (D (ePhi i) f) x / (Real.sin (x i).1 : ℂ) ^ 2)) * Complex.exp (f x)
      = 1 / (2 * (r : ℂ) ^ 2) * ∑ i, lambdaSq Q i (fun y => Complex.exp (f y)) x := by
  have : ∑ i, lambdaSq Q i (fun y => Complex.exp (f y)) x = Complex.exp (f x) * ∑ i,
      (-(D (eTheta i) f x / (Real.tan (x i).1 : ℂ)) - (D (eTheta i) (D (eTheta i) f) x + D (ePhi i) (D (ePhi i) f) x / (Real.sin (x i).1 : ℂ) ^ 2)
        - (D (eTheta i) f x ^ 2 + D (ePhi i) f x ^ 2 / (Real.sin (x i).1 : ℂ) ^ 2)
        + ((Q / Real.tan (x i).1 : ℂ) ^ 2 + 2 * Complex.I * Q * (Real.cos (x i).1 : ℂ) / (Real.sin (x i).1 : ℂ) ^ 2 * D (ePhi i) f x)) := by
    rw [Finset.mul_sum]
    refine Finset.sum_congr rfl fun i _ => ?_
    rw [lambdaSq_exp Q f x hf i (hs i), tan_div, tan_div]
    have hs' : (Real.sin (x i).1 : ℂ) ≠ 0 := by exact_mod_cast hs i
    congr 1
    rw [add_sq, mul_pow, Complex.I_sq]
    field_simp
    ring
  rw [this]
  unfold sphereFormula
  simp only [Finset.sum_add_distrib, Finset.sum_sub_distrib, Finset.sum_neg_distrib]
  ring

/-- C69 (Hessian modes): away from the poles, `energy:kinetic` is `Σ_i |Λ_i|² ψ / (2 R² ψ)` for `ψ = exp(log psi)`. -/
theorem c69_hessian (Q r : ℝ) (f : Conf n → ℂ) (x : Conf n) (hf : ContDiffAt ℝ 2 f x) (hs : ∀ i, Real.sin (x i).1 ≠ 0) :
    sphereHessian Q r f x * Complex.exp (f x) = 1 / (2 * (r : ℂ) ^ 2) * ∑ i, lambdaSq Q i (fun y => Complex.exp (f y)) x := by
  have hd := (eventually_diff hf).self_of_nhds
  unfold sphereHessian
  simp only [pdC_eq _ hd, hess_eq hf]
  exact sphereFormula_eq Q r f x hf hs

/-- C69 (forward mode): `jac` and `lap` are what `forward_laplacian` returns for the input seeded with the weights `1` and
`1 / sin(theta)` (C44): first derivatives and the sum of second derivatives along the weighted coordinate directions. -/
theorem c69_forward (Q r : ℝ) (f : Conf n → ℂ) (x : Conf n) (hf : ContDiffAt ℝ 2 f x) (hs : ∀ i, Real.sin (x i).1 ≠ 0) (v : ℂ)
    (jac : Fin n → Fin 2 → ℂ) (lap : ℂ)
    (h : IsLaplacian x (fun k : Fin n × Fin 2 => sphereWeights x k.1 k.2 • eDir k.1 k.2) f v (fun k => jac k.1 k.2) lap) :
    sphereForward Q r x jac lap * Complex.exp (f x) = 1 / (2 * (r : ℂ) ^ 2) * ∑ i, lambdaSq Q i (fun y => Complex.exp (f y)) x := by
  obtain ⟨rfl, h⟩ := h
  have h3 := Laplacian.Spec.CurveLap.comp hf (Laplacian.CurveLap_line x fun k : Fin n × Fin 2 => sphereWeights x k.1 k.2 • eDir k.1 k.2)
  obtain ⟨e1, e2⟩ := h.unique h3
  have hD : ∀ d, fderiv ℝ (fderiv ℝ f) x d d = D d (D d f) x := by
    intro d
    have h1 : ContDiffAt ℝ 1 (fderiv ℝ f) x := hf.fderiv_right (by norm_num)
    unfold D
    rw [fderiv_clm_apply (h1.differentiableAt (by norm_num)) (differentiableAt_const _)]
    simp
  have j0 : ∀ i, jac i 0 / (sphereWeights x i 0 : ℂ) = D (eTheta i) f x := by
    intro i
    rw [congrFun e1 (i, 0)]
    simp [sphereWeights, eDir, D]
  have j1 : ∀ i, jac i 1 / (sphereWeights x i 1 : ℂ) = D (ePhi i) f x := by
    intro i
    rw [congrFun e1 (i, 1)]
    have hs' : (Real.sin (x i).1 : ℂ) ≠ 0 := by exact_mod_cast hs i
    have hne : ((1 : ℂ) / (Real.sin (x i).1 : ℂ)) ≠ 0 := one_div_ne_zero hs'
    simp only [sphereWeights, eDir, one_ne_zero, if_false, map_smul, Complex.real_smul, D]
    push_cast
    exact mul_div_cancel_left₀ _ (by exact_mod_cast hne)
  have hl : lap = ∑ i, (D (eTheta i) (D (eTheta i) f) x + D (ePhi i) (D (ePhi i) f) x / (Real.sin (x i).1 : ℂ) ^ 2) := by
    rw [e2, map_zero, zero_add, Fintype.sum_prod_type]
    refine Finset.sum_congr rfl fun i _ => ?_
    rw [Fin.sum_univ_two]
    simp only [sphereWeights, eDir, one_ne_zero, if_false, if_true, one_smul, map_smul, ContinuousLinearMap.smul_apply, hD, Complex.real_smul]
    push_cast
    ring
  unfold sphereForward
  simp only [j0, j1]
  rw [hl]
  exact sphereFormula_eq Q r f x hf hs

end Jaqmc.Kinetic.Props
