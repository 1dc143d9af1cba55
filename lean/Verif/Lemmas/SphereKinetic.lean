import Verif.Lemmas.Kinetic
/-! Calculus on the sphere (C69, C70). -/
namespace Jaqmc.Kinetic
open Filter Topology Hall
open scoped BigOperators ContDiff

variable {n : ℕ}

theorem hasDerivAt_updTheta (x : Conf n) (i : Fin n) (t c : ℝ) : HasDerivAt (fun t => Function.update x i (t, c)) (eTheta i) t := by
  have h1 : HasDerivAt (fun t : ℝ => (t, c)) ((1 : ℝ), (0 : ℝ)) t := (hasDerivAt_id t).prodMk (hasDerivAt_const t c)
  have h2 := (hasFDerivAt_update (𝕜 := ℝ) x (i := i) (t, c)).comp_hasDerivAt t h1
  have h3 : (ContinuousLinearMap.pi (Pi.single i (ContinuousLinearMap.id ℝ Angles)) : Angles →L[ℝ] Conf n) (1, 0) = eTheta i := by
    funext j
    by_cases hj : j = i
    · subst hj; simp [eTheta]
    · simp [eTheta, Pi.single_eq_of_ne hj]
  rw [h3] at h2
  exact h2

theorem hasDerivAt_updPhi (x : Conf n) (i : Fin n) (t c : ℝ) : HasDerivAt (fun t => Function.update x i (c, t)) (ePhi i) t := by
  have h1 : HasDerivAt (fun t : ℝ => (c, t)) ((0 : ℝ), (1 : ℝ)) t := (hasDerivAt_const t c).prodMk (hasDerivAt_id t)
  have h2 := (hasFDerivAt_update (𝕜 := ℝ) x (i := i) (c, t)).comp_hasDerivAt t h1
  have h3 : (ContinuousLinearMap.pi (Pi.single i (ContinuousLinearMap.id ℝ Angles)) : Angles →L[ℝ] Conf n) (0, 1) = ePhi i := by
    funext j
    by_cases hj : j = i
    · subst hj; simp [ePhi]
    · simp [ePhi, Pi.single_eq_of_ne hj]
  rw [h3] at h2
  exact h2

theorem upd_self (x : Conf n) (i : Fin n) : Function.update x i ((x i).1, (x i).2) = x := Function.update_eq_self i x

theorem dTheta_eq {F : Conf n → ℂ} {x : Conf n} (i : Fin n) (h : DifferentiableAt ℝ F x) : Spec.dTheta i F x = D (eTheta i) F x := by
  unfold Spec.dTheta D
  have h' : HasFDerivAt F (fderiv ℝ F x) (Function.update x i ((x i).1, (x i).2)) := by rw [upd_self]; exact h.hasFDerivAt
  exact (h'.comp_hasDerivAt (x i).1 (hasDerivAt_updTheta x i (x i).1 (x i).2)).deriv

theorem dPhi_eq {F : Conf n → ℂ} {x : Conf n} (i : Fin n) (h : DifferentiableAt ℝ F x) : Spec.dPhi i F x = D (ePhi i) F x := by
  unfold Spec.dPhi D
  have h' : HasFDerivAt F (fderiv ℝ F x) (Function.update x i ((x i).1, (x i).2)) := by rw [upd_self]; exact h.hasFDerivAt
  exact (h'.comp_hasDerivAt (x i).2 (hasDerivAt_updPhi x i (x i).2 (x i).1)).deriv

theorem dTheta_congr {F G : Conf n → ℂ} {x : Conf n} (i : Fin n) (h : F =ᶠ[𝓝 x] G) : Spec.dTheta i F x = Spec.dTheta i G x := by
  unfold Spec.dTheta
  have hc : Tendsto (fun t => Function.update x i (t, (x i).2)) (𝓝 (x i).1) (𝓝 x) := by
    have := (hasDerivAt_updTheta x i (x i).1 (x i).2).continuousAt.tendsto
    rwa [upd_self] at this
  exact Filter.EventuallyEq.deriv_eq (hc.eventually h)

theorem dPhi_congr {F G : Conf n → ℂ} {x : Conf n} (i : Fin n) (h : F =ᶠ[𝓝 x] G) : Spec.dPhi i F x = Spec.dPhi i G x := by
  unfold Spec.dPhi
  have hc : Tendsto (fun t => Function.update x i ((x i).1, t)) (𝓝 (x i).2) (𝓝 x) := by
    have := (hasDerivAt_updPhi x i (x i).2 (x i).1).continuousAt.tendsto
    rwa [upd_self] at this
  exact Filter.EventuallyEq.deriv_eq (hc.eventually h)

/-! Functions of one electron. -/

theorem diff_coord {h : Angles → ℂ} {x : Conf n} (j : Fin n) (hd : DifferentiableAt ℝ h (x j)) : DifferentiableAt ℝ (fun y : Conf n => h (y j)) x :=
  hd.comp x (differentiableAt_apply (𝕜 := ℝ) j x)

theorem D_coord {h : Angles → ℂ} {x : Conf n} (j : Fin n) (hd : DifferentiableAt ℝ h (x j)) (d : Conf n) :
    D d (fun y : Conf n => h (y j)) x = fderiv ℝ h (x j) (d j) := by
  unfold D
  have := (hd.hasFDerivAt.comp x (hasFDerivAt_apply (𝕜 := ℝ) j x)).fderiv
  exact congrArg (fun A => A d) this

/-- A function of one electron with its two partial derivatives. -/
structure Partials (h : Angles → ℂ) (e : Angles) (a b : ℂ) : Prop where
  diff : DifferentiableAt ℝ h e
  theta : fderiv ℝ h e (1, 0) = a
  phi : fderiv ℝ h e (0, 1) = b

theorem Partials.D_theta {h : Angles → ℂ} {x : Conf n} {j : Fin n} {a b : ℂ} (H : Partials h (x j) a b) (i : Fin n) :
    D (eTheta i) (fun y : Conf n => h (y j)) x = if i = j then a else 0 := by
  rw [D_coord j H.diff]
  by_cases hij : i = j
  · subst hij; rw [if_pos rfl, ← H.theta]; simp [eTheta]
  · rw [if_neg hij, eTheta, Pi.single_eq_of_ne (Ne.symm hij), map_zero]

theorem Partials.D_phi {h : Angles → ℂ} {x : Conf n} {j : Fin n} {a b : ℂ} (H : Partials h (x j) a b) (i : Fin n) :
    D (ePhi i) (fun y : Conf n => h (y j)) x = if i = j then b else 0 := by
  rw [D_coord j H.diff]
  by_cases hij : i = j
  · subst hij; rw [if_pos rfl, ← H.phi]; simp [ePhi]
  · rw [if_neg hij, ePhi, Pi.single_eq_of_ne (Ne.symm hij), map_zero]

/-- A product of a function of theta and a function of phi. -/
theorem Partials.prod {u v : ℝ → ℝ} {e : Angles} {u' v' : ℝ} (hu : HasDerivAt u u' e.1) (hv : HasDerivAt v v' e.2) :
    Partials (fun e => ((u e.1 * v e.2 : ℝ) : ℂ)) e ((u' * v e.2 : ℝ) : ℂ) ((u e.1 * v' : ℝ) : ℂ) := by
  have h1 : HasFDerivAt (fun e : Angles => u e.1) (u' • ContinuousLinearMap.fst ℝ ℝ ℝ) e := hu.comp_hasFDerivAt e hasFDerivAt_fst
  have h2 : HasFDerivAt (fun e : Angles => v e.2) (v' • ContinuousLinearMap.snd ℝ ℝ ℝ) e := hv.comp_hasFDerivAt e hasFDerivAt_snd
  have h3 := Complex.ofRealCLM.hasFDerivAt.comp e (h1.mul h2)
  refine ⟨h3.differentiableAt, ?_, ?_⟩
  · refine (congrArg (fun A => A ((1 : ℝ), (0 : ℝ))) h3.fderiv).trans ?_
    simp [mul_comm]
  · refine (congrArg (fun A => A ((0 : ℝ), (1 : ℝ))) h3.fderiv).trans ?_
    simp

theorem Partials.congr {h g : Angles → ℂ} {e : Angles} {a b : ℂ} (H : Partials h e a b) (he : ∀ y, g y = h y) : Partials g e a b := by
  rw [show g = h from funext he]; exact H

theorem tan_inv (t : ℝ) : 1 / Real.tan t = Real.cos t / Real.sin t := by
  rw [Real.tan_eq_sin_div_cos, one_div_div]

theorem hasDerivAt_cot (t : ℝ) (h : Real.sin t ≠ 0) : HasDerivAt (fun t => Real.cos t / Real.sin t) (-(1 / Real.sin t ^ 2)) t := by
  have h1 := (Real.hasDerivAt_cos t).div (Real.hasDerivAt_sin t) h
  have h2 : (-Real.sin t * Real.sin t - Real.cos t * Real.cos t) / Real.sin t ^ 2 = -(1 / Real.sin t ^ 2) := by
    have := Real.sin_sq_add_cos_sq t
    rw [← neg_div]
    congr 1
    linarith
  rw [h2] at h1
  exact h1

theorem hasDerivAt_csc (t : ℝ) (h : Real.sin t ≠ 0) : HasDerivAt (fun t => 1 / Real.sin t) (-(Real.cos t / Real.sin t ^ 2)) t := by
  have h1 := (hasDerivAt_const t (1 : ℝ)).div (Real.hasDerivAt_sin t) h
  have h2 : (0 * Real.sin t - 1 * Real.cos t) / Real.sin t ^ 2 = -(Real.cos t / Real.sin t ^ 2) := by ring
  rw [h2] at h1
  exact h1

/-- `phi_hat`. -/
theorem partials_phiHat (e : Angles) (k : Fin 3) :
    Partials (fun e => (phiHat e k : ℂ)) e 0 ((![-Real.cos e.2, -Real.sin e.2, 0] k : ℝ) : ℂ) := by
  fin_cases k
  · have := Partials.prod (u := fun _ => 1) (v := fun t => -Real.sin t) (e := e) (hasDerivAt_const _ _) (Real.hasDerivAt_sin e.2).neg
    simpa [phiHat] using this
  · have := Partials.prod (u := fun _ => 1) (v := fun t => Real.cos t) (e := e) (hasDerivAt_const _ _) (Real.hasDerivAt_cos e.2)
    simpa [phiHat] using this
  · have := Partials.prod (u := fun _ => 0) (v := fun _ => 0) (e := e) (hasDerivAt_const _ _) (hasDerivAt_const _ _)
    simpa [phiHat] using this

/-- `theta_hat_prime`. -/
theorem partials_thetaHat (e : Angles) (h : Real.sin e.1 ≠ 0) (k : Fin 3) :
    Partials (fun e => (thetaHat e k : ℂ)) e ((![-(1 / Real.sin e.1 ^ 2) * Real.cos e.2, -(1 / Real.sin e.1 ^ 2) * Real.sin e.2, 0] k : ℝ) : ℂ)
      ((![Real.cos e.1 / Real.sin e.1 * -Real.sin e.2, Real.cos e.1 / Real.sin e.1 * Real.cos e.2, 0] k : ℝ) : ℂ) := by
  fin_cases k
  · refine (Partials.prod (v := fun t => Real.cos t) (hasDerivAt_cot e.1 h) (Real.hasDerivAt_cos e.2)).congr fun y => ?_
    simp only [thetaHat, Fin.zero_eta, Matrix.cons_val_zero]
    rw [← tan_inv]; congr 1; ring
  · refine (Partials.prod (v := fun t => Real.sin t) (hasDerivAt_cot e.1 h) (Real.hasDerivAt_sin e.2)).congr fun y => ?_
    simp only [thetaHat, Fin.mk_one, Matrix.cons_val_one]
    rw [← tan_inv]; congr 1; simp only [Matrix.cons_val_zero]; ring
  · have := Partials.prod (u := fun _ => -1) (v := fun _ => 1) (e := e) (hasDerivAt_const _ _) (hasDerivAt_const _ _)
    simpa [thetaHat] using this

theorem magHat_eq (e : Angles) (h : Real.sin e.1 ≠ 0) (k : Fin 3) :
    magHat e k = ![1 / Real.sin e.1 * Real.cos e.2, 1 / Real.sin e.1 * Real.sin e.2, 0] k := by
  have hs := Real.sin_sq_add_cos_sq e.1
  have ht : ∀ a : ℝ, a / Real.tan e.1 = a * (Real.cos e.1 / Real.sin e.1) := fun a => by rw [← tan_inv]; ring
  fin_cases k
  · simp only [magHat, thetaHat, rHat, Fin.zero_eta, Matrix.cons_val_zero, ht]
    field_simp
    linear_combination Real.cos e.2 * hs
  · simp only [magHat, thetaHat, rHat, Fin.mk_one, Matrix.cons_val_one, Matrix.cons_val_zero, ht]
    field_simp
    linear_combination Real.sin e.2 * hs
  · simp [magHat, thetaHat, rHat]

/-- The magnetic term. -/
theorem partials_magHat (e : Angles) (h : Real.sin e.1 ≠ 0) (k : Fin 3) :
    Partials (fun e => (magHat e k : ℂ)) e ((![-(Real.cos e.1 / Real.sin e.1 ^ 2) * Real.cos e.2, -(Real.cos e.1 / Real.sin e.1 ^ 2) * Real.sin e.2, 0] k : ℝ) : ℂ)
      ((![1 / Real.sin e.1 * -Real.sin e.2, 1 / Real.sin e.1 * Real.cos e.2, 0] k : ℝ) : ℂ) := by
  have hev : ∀ᶠ y : Angles in 𝓝 e, Real.sin y.1 ≠ 0 :=
    (Real.continuous_sin.comp continuous_fst).continuousAt.eventually_ne h
  have key : ∀ g : Angles → ℂ, ∀ a b, Partials g e a b → (∀ y : Angles, Real.sin y.1 ≠ 0 → (magHat y k : ℂ) = g y) →
      Partials (fun e => (magHat e k : ℂ)) e a b := by
    intro g a b H he
    have : (fun e => (magHat e k : ℂ)) =ᶠ[𝓝 e] g := hev.mono fun y hy => he y hy
    refine ⟨this.differentiableAt_iff.2 H.diff, ?_, ?_⟩
    · rw [this.fderiv_eq]; exact H.theta
    · rw [this.fderiv_eq]; exact H.phi
  fin_cases k
  · exact key _ _ _ (Partials.prod (v := fun t => Real.cos t) (hasDerivAt_csc e.1 h) (Real.hasDerivAt_cos e.2)) fun y hy => by
      rw [magHat_eq y hy]; simp
  · exact key _ _ _ (Partials.prod (v := fun t => Real.sin t) (hasDerivAt_csc e.1 h) (Real.hasDerivAt_sin e.2)) fun y hy => by
      rw [magHat_eq y hy]; simp
  · have H := key _ _ _ (Partials.prod (u := fun _ => 0) (v := fun _ => 0) (e := e) (hasDerivAt_const _ _) (hasDerivAt_const _ _)) (fun y hy => by
      rw [magHat_eq y hy]; simp)
    simpa using H

end Jaqmc.Kinetic
