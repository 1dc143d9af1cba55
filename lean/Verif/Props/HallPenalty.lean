import Verif.Props.HallEnergy
import Verif.Props.EnergyGradient
/-! C98: the gradient of the penalised loss. -/
namespace Jaqmc.HallEnergy.Props
open MeasureTheory Filter Topology Jaqmc.LossGrad Jaqmc.LossGrad.Spec Jaqmc.LossGrad.Props
open scoped BigOperators ComplexConjugate

variable {X : Type} [MeasurableSpace X] {μ : Measure X}

/-- C98, the gradient on average: `K = H + O` is the penalised Hamiltonian, `O` the penalty, both symmetric, with local values `e + o` and `o`.  The walker's loss is
`e + Re o` (`c98_loss`).  Without clipping, the reported loss averages to the penalised energy; the reported gradient averages to the derivative of the
penalised energy, up to the corrections of order `1/N` of C94, minus `(2 + 2/N) ⟨Im ∂log ψ · Im o⟩`: what the imaginary part of the penalty would have contributed. -/
theorem c98_gradient_partial {K O : L2C μ →ₗ.[ℂ] L2C μ} (hs : Symmetric K) (hO : Symmetric O) {ψ : ℝ → K.domain} {Ψ : ℝ → X → ℂ} {θ : ℝ} {g e o : X → ℂ}
    (F : Family K ψ Ψ θ g) (he : IsLocalEnergy K (ψ θ) fun x => e x + o x) (χ : O.domain) (hχ : (χ : L2C μ) = ψ θ) (ho : IsLocalEnergy O χ o)
    {D n : ℕ} (hD : 0 < D) (hn : 0 < n) (scale : ℝ) :
    ∃ (loss : (Fin D × Fin n → X) → ℂ) (grad : (Fin D × Fin n → X) → ℝ) (dE : ℝ),
      (∀ x, lossAndGrad "none" scale [walkers (batch g (fun x => e x + ((o x).re : ℝ)) x)] = .ok (some (loss x), some (grad x))) ∧
      HasDerivAt (fun t => energy K (ψ t)) dE θ ∧
      ∫ x, loss x ∂Measure.pi (fun _ => walkerLaw μ (ψ θ : L2C μ)) = energy K (ψ θ) ∧
      ∫ x, grad x ∂Measure.pi (fun _ => walkerLaw μ (ψ θ : L2C μ)) = (1 - 1 / ((D * n : ℕ) : ℝ)) * dE +
        4 / ((D * n : ℕ) : ℝ) * (∫ x, (g x).im * (e x + o x).im ∂walkerLaw μ (ψ θ : L2C μ)) -
        (2 + 2 / ((D * n : ℕ) : ℝ)) * ∫ x, (g x).im * (o x).im ∂walkerLaw μ (ψ θ : L2C μ) := by
  obtain ⟨loss, grad, dE, h1, h2, h3, h4, h5, h6⟩ := c94_gradient hs F he hD hn scale
  have hne := F.ne
  obtain ⟨ψ', hd⟩ : ∃ ψ', HasDerivAt (fun t => (ψ t : L2C μ)) ψ' θ := ⟨_, F.diff.hasDerivAt⟩
  have hg := Grad.pointwise_deriv F hd
  haveI := Grad.law_prob hne
  have one : ∀ᵐ x ∂μ, (ψ θ : L2C μ) x = (fun _ => (1 : ℂ)) x * (ψ θ : L2C μ) x := Eventually.of_forall fun x => (one_mul _).symm
  have ho' : ∀ᵐ x ∂μ, (O χ : L2C μ) x = o x * (ψ θ : L2C μ) x := by rw [← hχ]; exact ho
  obtain ⟨i1, -⟩ := Grad.inner_avg hne ψ' (O χ) g o hg ho'
  obtain ⟨i3, a3⟩ := Grad.inner_avg hne (ψ θ) (O χ) (fun _ => 1) o one ho'
  have i4 := Grad.prod_integrable hne ψ' (O χ) g o hg ho'
  have i5 : Integrable g (walkerLaw μ (ψ θ : L2C μ)) := by
    have := Grad.prod_integrable hne ψ' (ψ θ) g (fun _ => 1) hg one
    simpa using this
  simp only [map_one, one_mul] at a3 i3
  have hZ := Grad.Z_pos hne
  set P := walkerLaw μ (ψ θ : L2C μ) with hP
  -- the penalty is real on average
  have hreal : (∫ x, o x ∂P).im = 0 := by
    have hr : (inner ℂ (ψ θ : L2C μ) (O χ)).im = 0 := by
      rw [← Complex.conj_eq_iff_im, inner_conj_symm, ← hχ]
      exact hO χ χ
    rw [a3, Complex.mul_im, Complex.ofReal_re, Complex.ofReal_im, mul_zero, zero_add] at hr
    exact (mul_eq_zero.1 hr).resolve_right hZ.ne'
  have hN : ((D * n : ℕ) : ℂ) ≠ 0 := by
    have : D * n ≠ 0 := by positivity
    exact_mod_cast this
  have hNr : ((D * n : ℕ) : ℝ) ≠ 0 := by exact_mod_cast hN
  have him0 : ∫ x, (((o x).im : ℝ) : ℂ) ∂P = 0 := by
    rw [integral_complex_ofReal, show ∫ x, (o x).im ∂P = (∫ x, o x ∂P).im from integral_im (𝕜 := ℂ) i3, hreal, Complex.ofReal_zero]
  have ja : Integrable (fun x => (((o x).im : ℝ) : ℂ)) P := i3.im.ofReal
  have jb : Integrable (fun x => (((g x).im : ℝ) : ℂ)) P := i5.im.ofReal
  have jc : Integrable (fun x => (((g x).im * (o x).im : ℝ) : ℂ)) P := by
    have : Integrable (fun x => (((conj (g x) * o x).re - (o x * g x).re) / 2 : ℝ)) P := (i1.re.sub i4.re).div_const 2
    have e2 : Integrable (fun x => (g x).im * (o x).im) P := this.congr (Eventually.of_forall fun x => by
      simp only [Complex.mul_re, Complex.conj_re, Complex.conj_im]
      ring)
    exact e2.ofReal
  have jd : Integrable (fun x => (((o x).im : ℝ) : ℂ) * (((g x).im : ℝ) : ℂ)) P := jc.congr (Eventually.of_forall fun x => by push_cast; ring)
  -- the values
  have hg' : ∀ x, grad x = 2 * ((∑ i, conj (g (x i)) * (e (x i) + o (x i))) / ((D * n : ℕ) : ℂ) -
        ((∑ i, (e (x i) + o (x i))) * ∑ i, g (x i)) / (((D * n : ℕ) : ℂ) ^ 2)).re := by
    intro x
    have := (h1 x).symm.trans (batch_value hD hn scale g (fun x => e x + o x) x)
    simp only [Except.ok.injEq, Prod.mk.injEq, Option.some.injEq] at this
    exact this.2
  have hl' : ∀ x, loss x = (∑ i, (e (x i) + o (x i))) / ((D * n : ℕ) : ℂ) := by
    intro x
    have := (h1 x).symm.trans (batch_value hD hn scale g (fun x => e x + o x) x)
    simp only [Except.ok.injEq, Prod.mk.injEq, Option.some.injEq] at this
    exact this.1
  have split : ∀ x, e x + (((o x).re : ℝ) : ℂ) = (e x + o x) - (((o x).im : ℝ) : ℂ) * Complex.I := by
    intro x
    apply Complex.ext <;> simp
  refine ⟨fun x => loss x - (∑ i, (((o (x i)).im : ℝ) : ℂ)) / ((D * n : ℕ) : ℂ) * Complex.I,
    fun x => grad x - 2 * ((∑ i, (((g (x i)).im * (o (x i)).im : ℝ) : ℂ)) / ((D * n : ℕ) : ℂ)
      + ((∑ i, (((o (x i)).im : ℝ) : ℂ)) * ∑ i, (((g (x i)).im : ℝ) : ℂ)) / ((D * n : ℕ) : ℂ) ^ 2).re, dE, ?_, h2, ?_, ?_⟩
  · intro x
    rw [batch_value hD hn]
    have s1 : ∑ i, (e (x i) + (((o (x i)).re : ℝ) : ℂ)) = (∑ i, (e (x i) + o (x i))) - (∑ i, (((o (x i)).im : ℝ) : ℂ)) * Complex.I := by
      rw [Finset.sum_mul, ← Finset.sum_sub_distrib]
      exact Finset.sum_congr rfl fun i _ => split _
    have s2 : ∑ i, conj (g (x i)) * (e (x i) + (((o (x i)).re : ℝ) : ℂ)) =
        (∑ i, conj (g (x i)) * (e (x i) + o (x i))) - (∑ i, conj (g (x i)) * (((o (x i)).im : ℝ) : ℂ)) * Complex.I := by
      rw [Finset.sum_mul, ← Finset.sum_sub_distrib]
      exact Finset.sum_congr rfl fun i _ => by rw [split]; ring
    rw [s1, s2]
    simp only [hl', hg']
    have hcast : ((D * n : ℕ) : ℂ) = (((D * n : ℕ) : ℝ) : ℂ) := by push_cast; rfl
    have hm : ∑ i, (((o (x i)).im : ℝ) : ℂ) = ((∑ i, (o (x i)).im : ℝ) : ℂ) := by push_cast; rfl
    have hgi : ∑ i, (((g (x i)).im : ℝ) : ℂ) = ((∑ i, (g (x i)).im : ℝ) : ℂ) := by push_cast; rfl
    have hsi : ∑ i, (((g (x i)).im * (o (x i)).im : ℝ) : ℂ) = ((∑ i, (g (x i)).im * (o (x i)).im : ℝ) : ℂ) := by push_cast; rfl
    have hc : ((∑ i, conj (g (x i)) * (((o (x i)).im : ℝ) : ℂ)) * Complex.I).re = ∑ i, (g (x i)).im * (o (x i)).im := by
      rw [Complex.mul_I_re, Complex.im_sum, ← Finset.sum_neg_distrib]
      refine Finset.sum_congr rfl fun i _ => ?_
      simp
    have hG : (∑ i, g (x i)).im = ∑ i, (g (x i)).im := Complex.im_sum _ _
    rw [hm, hgi, hsi, hcast, ← Complex.ofReal_pow]
    generalize (∑ i, conj (g (x i)) * (((o (x i)).im : ℝ) : ℂ)) * Complex.I = C at hc
    generalize ∑ i, (g (x i)).im * (o (x i)).im = S at hc
    generalize ∑ i, (g (x i)).im = Gi at hG
    generalize ∑ i, (o (x i)).im = M
    generalize ∑ i, (e (x i) + o (x i)) = E
    generalize ∑ i, conj (g (x i)) * (e (x i) + o (x i)) = A
    generalize ∑ i, g (x i) = G at hG
    generalize ((D * n : ℕ) : ℝ) = N
    congr 3
    · ring
    · rw [Complex.sub_re, Complex.sub_re, Complex.add_re, Complex.div_ofReal_re, Complex.div_ofReal_re, Complex.div_ofReal_re, Complex.div_ofReal_re,
        Complex.div_ofReal_re, Complex.div_ofReal_re, Complex.sub_re, hc, sub_mul, Complex.sub_re]
      simp only [Complex.mul_re, Complex.mul_im, Complex.ofReal_re, Complex.ofReal_im, Complex.I_re, Complex.I_im, hG]
      ring
  · rw [integral_sub h3 (((integrable_finsetSum _ fun i _ => (Grad.eval_int P i ja).1).div_const _).mul_const _), h4, integral_mul_const, integral_div,
      integral_finsetSum _ fun i _ => (Grad.eval_int P i ja).1, Finset.sum_congr rfl fun i _ => (Grad.eval_int P i ja).2]
    simp [him0]
  · have k1 := (integrable_finsetSum (μ := Measure.pi fun _ : Fin D × Fin n => P) Finset.univ fun i _ => (Grad.eval_int P i jc).1).div_const (((D * n : ℕ) : ℂ))
    have k2 := (Grad.sums_int (ι := Fin D × Fin n) P ja jb jd).1.div_const ((((D * n : ℕ) : ℂ)) ^ 2)
    have hcard : (Fintype.card (Fin D × Fin n) : ℂ) = ((D * n : ℕ) : ℂ) := by simp
    have hre : ∫ x : Fin D × Fin n → X, ((∑ i, (((g (x i)).im * (o (x i)).im : ℝ) : ℂ)) / ((D * n : ℕ) : ℂ)
        + ((∑ i, (((o (x i)).im : ℝ) : ℂ)) * ∑ i, (((g (x i)).im : ℝ) : ℂ)) / ((D * n : ℕ) : ℂ) ^ 2).re ∂Measure.pi (fun _ => P) =
        (∫ x : Fin D × Fin n → X, ((∑ i, (((g (x i)).im * (o (x i)).im : ℝ) : ℂ)) / ((D * n : ℕ) : ℂ)
        + ((∑ i, (((o (x i)).im : ℝ) : ℂ)) * ∑ i, (((g (x i)).im : ℝ) : ℂ)) / ((D * n : ℕ) : ℂ) ^ 2) ∂Measure.pi (fun _ => P)).re :=
      integral_re (𝕜 := ℂ) (k1.add k2)
    have k3 : Integrable (fun x : Fin D × Fin n → X => 2 * ((∑ i, (((g (x i)).im * (o (x i)).im : ℝ) : ℂ)) / ((D * n : ℕ) : ℂ)
        + ((∑ i, (((o (x i)).im : ℝ) : ℂ)) * ∑ i, (((g (x i)).im : ℝ) : ℂ)) / ((D * n : ℕ) : ℂ) ^ 2).re) (Measure.pi fun _ => P) :=
      (k1.add k2).re.const_mul 2
    rw [integral_sub h5 k3, h6, integral_const_mul, hre, integral_add k1 k2, integral_div, integral_div,
      (Grad.sums_int (ι := Fin D × Fin n) P ja jb jd).2, him0, zero_mul, mul_zero, add_zero, hcard,
      integral_finsetSum _ fun i _ => (Grad.eval_int P i jc).1, Finset.sum_congr rfl fun i _ => (Grad.eval_int P i jc).2,
      Finset.sum_const, Finset.card_univ, nsmul_eq_mul, hcard, mul_div_cancel_left₀ _ hN]
    have hjd : ∫ x, (((o x).im : ℝ) : ℂ) * (((g x).im : ℝ) : ℂ) ∂P = ((∫ x, (g x).im * (o x).im ∂P : ℝ) : ℂ) := by
      rw [← integral_complex_ofReal]
      refine integral_congr_ae (Eventually.of_forall fun x => ?_)
      push_cast
      ring
    rw [hjd, integral_complex_ofReal]
    have hcast : ((D * n : ℕ) : ℂ) = (((D * n : ℕ) : ℝ) : ℂ) := by push_cast; rfl
    rw [hcast, ← Complex.ofReal_mul, ← Complex.ofReal_pow, ← Complex.ofReal_div, ← Complex.ofReal_add, Complex.ofReal_re]
    field_simp

/-- C98: when the wavefunction's phase does not depend on the parameter (`∂log ψ` real), the reported gradient averages to `(1 - 1/N)` times the derivative of the
penalised energy. -/
theorem c98_gradient_real {K O : L2C μ →ₗ.[ℂ] L2C μ} (hs : Symmetric K) (hO : Symmetric O) {ψ : ℝ → K.domain} {Ψ : ℝ → X → ℂ} {θ : ℝ} {g e o : X → ℂ}
    (F : Family K ψ Ψ θ g) (he : IsLocalEnergy K (ψ θ) fun x => e x + o x) (χ : O.domain) (hχ : (χ : L2C μ) = ψ θ) (ho : IsLocalEnergy O χ o)
    (hg0 : ∀ᵐ x ∂μ, (g x).im = 0) {D n : ℕ} (hD : 0 < D) (hn : 0 < n) (scale : ℝ) :
    ∃ (loss : (Fin D × Fin n → X) → ℂ) (grad : (Fin D × Fin n → X) → ℝ) (dE : ℝ),
      (∀ x, lossAndGrad "none" scale [walkers (batch g (fun x => e x + ((o x).re : ℝ)) x)] = .ok (some (loss x), some (grad x))) ∧
      HasDerivAt (fun t => energy K (ψ t)) dE θ ∧
      ∫ x, grad x ∂Measure.pi (fun _ => walkerLaw μ (ψ θ : L2C μ)) = (1 - 1 / ((D * n : ℕ) : ℝ)) * dE := by
  obtain ⟨loss, grad, dE, h1, h2, -, h4⟩ := c98_gradient_partial hs hO F he χ hχ ho hD hn scale
  have h0 : ∀ a : X → ℂ, ∫ x, (g x).im * (a x).im ∂walkerLaw μ (ψ θ : L2C μ) = 0 := by
    intro a
    rw [integral_eq_zero_of_ae]
    filter_upwards [(withDensity_absolutelyContinuous μ _).ae_le hg0] with x hx
    rw [hx, zero_mul]; rfl
  rw [h0 o, h0 fun x => e x + o x] at h4
  exact ⟨loss, grad, dE, h1, h2, by rw [h4]; ring⟩

/-! ### The penalty does not act on the phase -/

section
open Jaqmc.HallStats.Spec Jaqmc.Kinetic Jaqmc.Kinetic.Spec Jaqmc.HallEnergy.Spec

/-- One electron, `log ψ = log sin θ + i (m φ + t sin φ)`: the parameter `t` changes the phase only. -/
noncomputable def phaseFamily (m : ℤ) (t : ℝ) (x : Conf 1) : ℂ :=
  (Real.log (Real.sin (x 0).1) : ℂ) + Complex.I * (m * (x 0).2 + t * Real.sin (x 0).2 : ℝ)

/-- Its derivative in `t`. -/
noncomputable def phaseDeriv (x : Conf 1) : ℂ := Complex.I * (Real.sin (x 0).2 : ℝ)

theorem phase_smooth (m : ℤ) (t : ℝ) (x : Conf 1) (hs : Real.sin (x 0).1 ≠ 0) : ContDiffAt ℝ 2 (phaseFamily m t) x := by
  have h0 : ContDiffAt ℝ 2 (fun x : Conf 1 => (x 0).1) x := by fun_prop
  have h1 : ContDiffAt ℝ 2 (fun x : Conf 1 => Real.log (Real.sin (x 0).1)) x := (Real.contDiff_sin.contDiffAt.comp x h0).log hs
  have h2 : ContDiffAt ℝ 2 (fun x : Conf 1 => m * (x 0).2 + t * Real.sin (x 0).2) x := by fun_prop
  exact (Complex.ofRealCLM.contDiff.contDiffAt.comp x h1).add (contDiffAt_const.mul (Complex.ofRealCLM.contDiff.contDiffAt.comp x h2))

theorem phase_curve (m : ℤ) (t : ℝ) (x : Conf 1) (s : ℝ) :
    HasDerivAt (fun s => Complex.exp (phaseFamily m t (Function.update x 0 ((x 0).1, s))))
      (Complex.exp (phaseFamily m t (Function.update x 0 ((x 0).1, s))) * (Complex.I * (m + t * Real.cos s : ℝ))) s := by
  unfold phaseFamily
  simp only [Function.update_self]
  have h1 : HasDerivAt (fun s : ℝ => (m * s + t * Real.sin s : ℝ)) (m + t * Real.cos s) s := by
    simpa using ((hasDerivAt_id s).const_mul (m : ℝ)).fun_add ((Real.hasDerivAt_sin s).const_mul t)
  exact ((h1.ofReal_comp.const_mul Complex.I).const_add _).cexp

theorem phase_lz (Q c : ℝ) (m : ℤ) (t : ℝ) (x : Conf 1) :
    lzShift Q c (fun y => Complex.exp (phaseFamily m t y)) x = ((m + t * Real.cos (x 0).2 - c : ℝ) : ℂ) * Complex.exp (phaseFamily m t x) := by
  unfold lzShift angular
  rw [Fin.sum_univ_one]
  simp only [dPhi]
  rw [(phase_curve m t x (x 0).2).deriv, Prod.mk.eta, Function.update_eq_self]
  push_cast
  linear_combination (-(m + t * Complex.cos (x 0).2) * Complex.exp (phaseFamily m t x)) * Complex.I_sq

theorem phase_lz2 (Q c : ℝ) (m : ℤ) (t : ℝ) (x : Conf 1) :
    lzShift Q c (lzShift Q c fun y => Complex.exp (phaseFamily m t y)) x =
      (((m + t * Real.cos (x 0).2 - c) ^ 2 : ℝ) + Complex.I * (t * Real.sin (x 0).2 : ℝ)) * Complex.exp (phaseFamily m t x) := by
  rw [show (lzShift Q c fun y => Complex.exp (phaseFamily m t y)) = fun y => ((m + t * Real.cos (y 0).2 - c : ℝ) : ℂ) * Complex.exp (phaseFamily m t y) from
    funext fun y => phase_lz Q c m t y]
  unfold lzShift angular
  rw [Fin.sum_univ_one]
  simp only [dPhi]
  have h1 : HasDerivAt (fun s : ℝ => (m + t * Real.cos s - c : ℝ)) (-(t * Real.sin (x 0).2)) (x 0).2 := by
    simpa using (((Real.hasDerivAt_cos (x 0).2).const_mul t).const_add (m : ℝ)).sub_const c
  have h2 := h1.ofReal_comp.fun_mul (phase_curve m t x (x 0).2)
  simp only [Function.update_self]
  rw [h2.deriv, Prod.mk.eta, Function.update_eq_self]
  push_cast
  linear_combination (-((m + t * Complex.cos (x 0).2 - c) * (m + t * Complex.cos (x 0).2)) * Complex.exp (phaseFamily m t x)) * Complex.I_sq

/-- The configuration without penalties. -/
def unpenalised (c : Config) : Config := { c with penalty := ⟨0, 0, 0⟩ }

theorem phase_loss (c : Config) (hr : 0 < c.r) (hl : c.penalty.l2Penalty = 0) (m : ℤ) (t : ℝ) (x : Conf 1) (hs : Real.sin (x 0).1 ≠ 0) :
    ∃ e : ℂ, loss (unpenalised c) .hessian (phaseFamily m t) x = .ok e ∧
      loss c .hessian (phaseFamily m t) x = .ok (e + (c.penalty.lzPenalty * (m + t * Real.cos (x 0).2 - c.penalty.lzCenter) ^ 2 : ℝ)) := by
  have hs' : ∀ i, Real.sin (x i).1 ≠ 0 := fun i => by rw [Subsingleton.elim i 0]; exact hs
  have h1 := c98_loss (unpenalised c) (show 0 < (unpenalised c).r from hr) .hessian (phaseFamily m t) x (phase_smooth m t x hs) hs' trivial
  have h2 := c98_loss c hr .hessian (phaseFamily m t) x (phase_smooth m t x hs) hs' trivial
  refine ⟨_, h1, ?_⟩
  rw [h2]
  unfold penalty
  simp only [unpenalised, hl, phase_lz2, Complex.ofReal_zero, zero_mul, add_zero, zero_div, Complex.zero_re]
  have hψ : Complex.exp (phaseFamily m t x) ≠ 0 := Complex.exp_ne_zero _
  rw [← mul_assoc, mul_div_cancel_right₀ _ hψ, Complex.re_ofReal_mul, Complex.add_re, Complex.ofReal_re, Complex.I_mul_re, Complex.ofReal_im, neg_zero, add_zero]
  rfl

theorem integral_one (F : ℝ × ℝ → ℝ) : ∫ R : Fin 1 → ℝ × ℝ, F (R 0) ∂areaN 1 = ∫ e, F e ∂area :=
  (measurePreserving_piUnique (X := fun _ : Fin 1 => ℝ × ℝ) fun _ => area).integral_comp (MeasurableEquiv.measurableEmbedding _) F

/-- `|ψ|²` of the family. -/
noncomputable def weight (θ : ℝ) : ℝ := Real.exp (Real.log (Real.sin θ)) ^ 2

theorem weight_eq (m : ℤ) (t : ℝ) (x : Conf 1) : ‖Complex.exp (phaseFamily m t x)‖ ^ 2 = weight (x 0).1 := by
  unfold weight phaseFamily
  rw [Complex.norm_exp, Complex.add_re, Complex.ofReal_re, Complex.I_mul_re, Complex.ofReal_im, neg_zero, add_zero]

theorem weight_le (θ : ℝ) : weight θ ≤ 1 := by
  unfold weight
  have : Real.exp (Real.log (Real.sin θ)) ≤ 1 := by
    rw [Real.exp_le_one_iff]
    by_cases h : Real.sin θ = 0
    · simp [h]
    · rw [← Real.log_abs]
      exact Real.log_nonpos (abs_nonneg _) (Real.abs_sin_le_one θ)
  nlinarith [Real.exp_pos (Real.log (Real.sin θ))]

theorem weight_pos (θ : ℝ) : 0 < weight θ := by unfold weight; positivity

theorem weight_measurable : Measurable weight := by unfold weight; fun_prop

instance : IsFiniteMeasure polarM := ⟨by rw [polar_univ]; norm_num⟩

theorem weight_integrable : Integrable weight polarM :=
  Integrable.of_bound weight_measurable.aestronglyMeasurable 1 (Eventually.of_forall fun θ => by
    rw [Real.norm_eq_abs, abs_of_pos (weight_pos θ)]; exact weight_le θ)

theorem weight_int_pos : 0 < ∫ θ, weight θ ∂polarM := by
  rw [integral_pos_iff_support_of_nonneg (fun θ => (weight_pos θ).le) weight_integrable]
  have : Function.support weight = Set.univ := by ext θ; simp [(weight_pos θ).ne']
  rw [this, polar_univ]
  norm_num

theorem square_integral (a t : ℝ) : ∫ φ in Set.Icc (-Real.pi) Real.pi, (a + t * Real.cos φ) ^ 2 = 2 * Real.pi * (a ^ 2 + t ^ 2 / 2) := by
  rw [integral_Icc_eq_integral_Ioc, ← intervalIntegral.integral_of_le (by linarith [Real.pi_pos])]
  have e : ∀ φ, (a + t * Real.cos φ) ^ 2 = a ^ 2 + 2 * a * t * Real.cos φ + t ^ 2 * Real.cos φ ^ 2 := fun φ => by ring
  simp only [e]
  rw [intervalIntegral.integral_add (by apply Continuous.intervalIntegrable; fun_prop) (by apply Continuous.intervalIntegrable; fun_prop),
    intervalIntegral.integral_add (by apply Continuous.intervalIntegrable; fun_prop) (by apply Continuous.intervalIntegrable; fun_prop),
    intervalIntegral.integral_const, intervalIntegral.integral_const_mul, intervalIntegral.integral_const_mul, integral_cos, integral_cos_sq]
  simp
  ring

theorem phase_average (m : ℤ) (t a lam : ℝ) :
    ∫ x, lam * (m + t * Real.cos (x 0).2 - a) ^ 2 ∂law (fun x : Fin 1 → ℝ × ℝ => Complex.exp (phaseFamily m t x)) = lam * ((m - a) ^ 2 + t ^ 2 / 2) := by
  have hn : normSq (fun x : Fin 1 → ℝ × ℝ => Complex.exp (phaseFamily m t x)) = (∫ θ, weight θ ∂polarM) * (2 * Real.pi) := by
    unfold normSq
    simp only [weight_eq]
    rw [integral_one fun e => weight e.1]
    unfold area
    have := integral_prod_mul (μ := polarM) (ν := volume.restrict (Set.Icc (-Real.pi) Real.pi)) weight fun _ => (1 : ℝ)
    simp only [mul_one] at this
    rw [this]
    congr 1
    simp [Real.volume_real_Icc]
    rw [max_eq_left (by linarith [Real.pi_pos])]
    ring
  unfold law
  rw [hn, integral_smul_measure, integral_withDensity_eq_integral_toReal_smul (by
    simp only [weight_eq]; exact ((weight_measurable.comp (measurable_fst.comp (measurable_pi_apply 0))).ennreal_ofReal))
    (Eventually.of_forall fun _ => ENNReal.ofReal_lt_top)]
  simp only [weight_eq, ENNReal.toReal_ofReal (weight_pos _).le, smul_eq_mul]
  rw [integral_one fun e => weight e.1 * (lam * (m + t * Real.cos e.2 - a) ^ 2)]
  unfold area
  rw [integral_prod_mul (μ := polarM) (ν := volume.restrict (Set.Icc (-Real.pi) Real.pi)) weight fun φ => lam * (m + t * Real.cos φ - a) ^ 2]
  have e : ∀ φ, (m + t * Real.cos φ - a) ^ 2 = ((m - a) + t * Real.cos φ) ^ 2 := fun φ => by ring
  simp only [e]
  rw [integral_const_mul, square_integral, ENNReal.toReal_ofReal (by have := weight_int_pos; positivity)]
  have := weight_int_pos.ne'
  have := Real.pi_pos.ne'
  field_simp

/-- C98 fails: for the family `log ψ_t = log sin θ + i (m φ + t sin φ)` the penalty `λ (L_z - c)²` has the expectation `λ ((m - c)² + t²/2)`, with derivative `λ t`; yet
for every batch of walkers the reported gradient is the one without penalty. -/
theorem c98_phase_blind (c : Config) (hr : 0 < c.r) (hl : c.penalty.l2Penalty = 0) (m : ℤ) (t : ℝ) :
    (∀ x, HasDerivAt (fun t => phaseFamily m t x) (phaseDeriv x) t) ∧
    (∃ p : Conf 1 → ℝ,
      (∀ x, Real.sin (x 0).1 ≠ 0 → ∃ e, loss (unpenalised c) .hessian (phaseFamily m t) x = .ok e ∧ loss c .hessian (phaseFamily m t) x = .ok (e + (p x : ℂ))) ∧
      ∫ x, p x ∂law (fun x => Complex.exp (phaseFamily m t x)) = c.penalty.lzPenalty * ((m - c.penalty.lzCenter) ^ 2 + t ^ 2 / 2)) ∧
    ∀ (D n : ℕ), 0 < D → 0 < n → ∀ (scale : ℝ) (x : Fin D × Fin n → Conf 1) (e e' : Conf 1 → ℂ), (∀ i, Real.sin (x i 0).1 ≠ 0) →
      (∀ i, loss (unpenalised c) .hessian (phaseFamily m t) (x i) = .ok (e (x i))) → (∀ i, loss c .hessian (phaseFamily m t) (x i) = .ok (e' (x i))) →
      ∃ l l' gr, lossAndGrad "none" scale [walkers (batch phaseDeriv e x)] = .ok (some l, some gr) ∧
        lossAndGrad "none" scale [walkers (batch phaseDeriv e' x)] = .ok (some l', some gr) := by
  refine ⟨fun x => ?_, ⟨fun x => c.penalty.lzPenalty * (m + t * Real.cos (x 0).2 - c.penalty.lzCenter) ^ 2,
    fun x hx => phase_loss c hr hl m t x hx, phase_average m t _ _⟩, ?_⟩
  · unfold phaseFamily phaseDeriv
    have h1 : HasDerivAt (fun t : ℝ => (m * (x 0).2 + t * Real.sin (x 0).2 : ℝ)) (Real.sin (x 0).2) t := by
      simpa using ((hasDerivAt_id t).mul_const (Real.sin (x 0).2)).const_add ((m : ℝ) * (x 0).2)
    exact (h1.ofReal_comp.const_mul Complex.I).const_add _
  · intro D n hD hn scale x e e' hx h1 h2
    have hd : ∀ i, e' (x i) = e (x i) + (c.penalty.lzPenalty * (m + t * Real.cos (x i 0).2 - c.penalty.lzCenter) ^ 2 : ℝ) := by
      intro i
      obtain ⟨v, a, b⟩ := phase_loss c hr hl m t (x i) (hx i)
      rw [h1 i] at a
      rw [h2 i] at b
      injection a with a
      injection b with b
      rw [b, a]
    rw [batch_value hD hn, batch_value hD hn]
    refine ⟨_, (∑ i, e' (x i)) / ((D * n : ℕ) : ℂ), _, rfl, ?_⟩
    congr 4
    set r : Fin D × Fin n → ℝ := fun i => c.penalty.lzPenalty * (m + t * Real.cos (x i 0).2 - c.penalty.lzCenter) ^ 2 with hrdef
    have s1 : ∑ i, e' (x i) = (∑ i, e (x i)) + ((∑ i, r i : ℝ) : ℂ) := by
      push_cast
      rw [← Finset.sum_add_distrib]
      exact Finset.sum_congr rfl fun i _ => by rw [hd, hrdef]
    have s2 : ∑ i, conj (phaseDeriv (x i)) * e' (x i) = (∑ i, conj (phaseDeriv (x i)) * e (x i)) - Complex.I * ((∑ i, Real.sin (x i 0).2 * r i : ℝ) : ℂ) := by
      push_cast
      rw [Finset.mul_sum, ← Finset.sum_sub_distrib]
      refine Finset.sum_congr rfl fun i _ => ?_
      rw [hd, hrdef]
      unfold phaseDeriv
      rw [map_mul, Complex.conj_I, Complex.conj_ofReal]
      push_cast
      ring
    have s3 : ∑ i, phaseDeriv (x i) = Complex.I * ((∑ i, Real.sin (x i 0).2 : ℝ) : ℂ) := by
      unfold phaseDeriv
      rw [← Finset.mul_sum]
      push_cast
      rfl
    have hcast : ((D * n : ℕ) : ℂ) = (((D * n : ℕ) : ℝ) : ℂ) := by push_cast; rfl
    rw [s1, s2, s3, hcast, ← Complex.ofReal_pow]
    rw [Complex.sub_re, Complex.sub_re, Complex.div_ofReal_re, Complex.div_ofReal_re, Complex.div_ofReal_re, Complex.div_ofReal_re, Complex.sub_re, add_mul, Complex.add_re]
    simp

/-- Flux 2, penalty `(L_z - 0)²`: at `t = 1` the penalty's expectation for `m = 0` is `1/2` with derivative 1, and the gradient does not see it. -/
example : ∃ c : Config, 0 < c.r ∧ c.penalty.l2Penalty = 0 ∧ c.penalty.lzPenalty = 1 ∧ hasPenalties c.penalty = true :=
  ⟨⟨2, none, 1, ⟨0, 1, 0⟩⟩, by simp [Config.r], rfl, rfl, by simp [hasPenalties]⟩

end

/-- The hypotheses of `c98_gradient_partial` hold on the unit interval for `φ = 1`, `χ x = x`, with `⟨χ, ·⟩ χ` as the penalty and nothing else. -/
example : ∃ φ χ : L2C (volume.restrict (Set.Icc (0 : ℝ) 1)), Symmetric (rankOne χ) ∧ Family (rankOne χ) (line φ χ) (fun t x => φ x + t * χ x) 0 (fun x => χ x / φ x) ∧
    IsLocalEnergy (rankOne χ) (line φ χ 0) (fun x => 0 + inner ℂ χ φ * (χ x / φ x)) ∧
    IsLocalEnergy (rankOne χ) (line φ χ 0) (fun x => inner ℂ χ φ * (χ x / φ x)) := by
  obtain ⟨φ, χ, -, h1, h2, h3⟩ := c94_example
  exact ⟨φ, χ, h1, h2, by simpa using h3, h3⟩

end Jaqmc.HallEnergy.Props
