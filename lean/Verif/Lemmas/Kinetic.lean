import Verif.Model.Kinetic
import Verif.Spec.Kinetic
import Mathlib.Analysis.Calculus.Deriv.Pi
import Mathlib.Analysis.Calculus.ContDiff.Operations
import Mathlib.Analysis.Calculus.FDeriv.Mul
import Mathlib.Analysis.Calculus.FDeriv.Pi
import Mathlib.Analysis.Calculus.FDeriv.Symmetric
import Mathlib.Analysis.SpecialFunctions.ExpDeriv
import Mathlib.Analysis.SpecialFunctions.Trigonometric.Deriv
import Mathlib.Analysis.Calculus.FDeriv.RestrictScalars
/-! Calculus for the kinetic-energy estimators (C68–C70). -/
namespace Jaqmc.Kinetic
open Filter Topology
open scoped BigOperators ContDiff

section
variable {E : Type} [NormedAddCommGroup E] [NormedSpace ℝ E] {K : Type} [NormedField K] [NormedAlgebra ℝ K]

/-- The derivative in direction `d`. -/
noncomputable def D {G : Type} [NormedAddCommGroup G] [NormedSpace ℝ G] (d : E) (F : E → G) (x : E) : G := fderiv ℝ F x d

theorem D_congr {G : Type} [NormedAddCommGroup G] [NormedSpace ℝ G] {F H : E → G} {x : E} (d : E) (h : F =ᶠ[𝓝 x] H) : D d F x = D d H x := by
  unfold D; rw [h.fderiv_eq]

theorem D_mul {F H : E → K} {x : E} (d : E) (hF : DifferentiableAt ℝ F x) (hH : DifferentiableAt ℝ H x) :
    D d (fun y => F y * H y) x = D d F x * H x + F x * D d H x := by
  unfold D
  rw [fderiv_fun_mul hF hH]
  simp only [ContinuousLinearMap.add_apply, ContinuousLinearMap.smul_apply, smul_eq_mul]
  ring

theorem D_add {F H : E → K} {x : E} (d : E) (hF : DifferentiableAt ℝ F x) (hH : DifferentiableAt ℝ H x) :
    D d (fun y => F y + H y) x = D d F x + D d H x := by
  unfold D
  rw [fderiv_fun_add hF hH]
  rfl

theorem D_sub {F H : E → K} {x : E} (d : E) (hF : DifferentiableAt ℝ F x) (hH : DifferentiableAt ℝ H x) :
    D d (fun y => F y - H y) x = D d F x - D d H x := by
  unfold D
  rw [fderiv_fun_sub hF hH]
  rfl

theorem D_sum {ι : Type} (s : Finset ι) {F : ι → E → K} {x : E} (d : E) (hF : ∀ i ∈ s, DifferentiableAt ℝ (F i) x) :
    D d (fun y => ∑ i ∈ s, F i y) x = ∑ i ∈ s, D d (F i) x := by
  unfold D
  rw [fderiv_fun_sum hF, ContinuousLinearMap.sum_apply]

theorem D_const (c : K) (d x : E) : D d (fun _ => c) x = 0 := by
  unfold D; simp

theorem D_const_mul {F : E → K} {x : E} (c : K) (d : E) (hF : DifferentiableAt ℝ F x) : D d (fun y => c * F y) x = c * D d F x := by
  rw [D_mul d (differentiableAt_const c) hF, D_const]; ring

/-- Near a point where `f` is twice continuously differentiable, it is differentiable. -/
theorem eventually_diff {G : Type} [NormedAddCommGroup G] [NormedSpace ℝ G] {f : E → G} {x : E} (hf : ContDiffAt ℝ 2 f x) :
    ∀ᶠ y in 𝓝 x, DifferentiableAt ℝ f y :=
  (hf.eventually (by norm_num)).mono fun _ h => h.differentiableAt (by norm_num)

theorem diff_D {G : Type} [NormedAddCommGroup G] [NormedSpace ℝ G] {f : E → G} {x : E} (hf : ContDiffAt ℝ 2 f x) (d : E) :
    DifferentiableAt ℝ (D d f) x := by
  have : ContDiffAt ℝ 1 (fderiv ℝ f) x := hf.fderiv_right (by norm_num)
  exact (this.differentiableAt (by norm_num)).clm_apply (differentiableAt_const d)

theorem D_symm {G : Type} [NormedAddCommGroup G] [NormedSpace ℝ G] {f : E → G} {x : E} (hf : ContDiffAt ℝ 2 f x) (d d' : E) :
    D d (D d' f) x = D d' (D d f) x := by
  have h1 : ContDiffAt ℝ 1 (fderiv ℝ f) x := hf.fderiv_right (by norm_num)
  have h2 := h1.differentiableAt (by norm_num)
  have hs := hf.isSymmSndFDerivAt (by simp)
  have e : ∀ a b : E, D a (D b f) x = fderiv ℝ (fderiv ℝ f) x a b := by
    intro a b
    unfold D
    rw [fderiv_clm_apply h2 (differentiableAt_const b)]
    simp
  rw [e, e]
  exact hs.eq d d'

theorem pdC_eq {f : E → ℂ} {x : E} (d : E) (hf : DifferentiableAt ℝ f x) : pdC d f x = D d f x := by
  unfold pdC pd D
  have hr : fderiv ℝ (fun y => (f y).re) x d = (fderiv ℝ f x d).re := by
    have := (Complex.reCLM.hasFDerivAt.comp x hf.hasFDerivAt).fderiv
    exact congrArg (fun A => A d) this
  have hi : fderiv ℝ (fun y => (f y).im) x d = (fderiv ℝ f x d).im := by
    have := (Complex.imCLM.hasFDerivAt.comp x hf.hasFDerivAt).fderiv
    exact congrArg (fun A => A d) this
  rw [hr, hi, mul_comm, Complex.re_add_im]

/-- The real and imaginary parts of a second derivative. -/
theorem pd_pd {f : E → ℂ} {x : E} (d d' : E) (hf : ContDiffAt ℝ 2 f x) :
    (pd d' (fun y => pd d (fun z => (f z).re) y) x : ℂ) + Complex.I * (pd d' (fun y => pd d (fun z => (f z).im) y) x : ℂ) = D d' (D d f) x := by
  have hr : (fun y => pd d (fun z => (f z).re) y) =ᶠ[𝓝 x] fun y => (D d f y).re := by
    filter_upwards [eventually_diff hf] with y hy
    exact congrArg (fun A => A d) (Complex.reCLM.hasFDerivAt.comp y hy.hasFDerivAt).fderiv
  have hi : (fun y => pd d (fun z => (f z).im) y) =ᶠ[𝓝 x] fun y => (D d f y).im := by
    filter_upwards [eventually_diff hf] with y hy
    exact congrArg (fun A => A d) (Complex.imCLM.hasFDerivAt.comp y hy.hasFDerivAt).fderiv
  rw [← pdC_eq d' (diff_D hf d)]
  unfold pdC
  have e1 : pd d' (fun y => pd d (fun z => (f z).re) y) x = pd d' (fun y => (D d f y).re) x := by unfold pd at hr ⊢; rw [hr.fderiv_eq]
  have e2 : pd d' (fun y => pd d (fun z => (f z).im) y) x = pd d' (fun y => (D d f y).im) x := by unfold pd at hi ⊢; rw [hi.fderiv_eq]
  rw [e1, e2]

end

/-! ### The exponential -/

section
variable {E : Type} [NormedAddCommGroup E] [NormedSpace ℝ E] {K : Type} [RCLike K]

theorem D_exp (ex : K → K) (hex : ∀ z, HasDerivAt ex (ex z) z) (s : K) {f : E → K} {x : E} (hf : DifferentiableAt ℝ f x) (d : E) :
    DifferentiableAt ℝ (fun y => s * ex (f y)) x ∧ D d (fun y => s * ex (f y)) x = s * ex (f x) * D d f x := by
  have h1 : HasFDerivAt ex ((ContinuousLinearMap.toSpanSingleton K (ex (f x))).restrictScalars ℝ) (f x) :=
    (hex (f x)).hasFDerivAt.restrictScalars ℝ
  have h2 := h1.comp x hf.hasFDerivAt
  have h3 := h2.const_mul s
  refine ⟨h3.differentiableAt, ?_⟩
  unfold D
  have := h3.fderiv
  rw [show (fun y => s * ex (f y)) = fun y => s * (ex ∘ f) y from rfl, this]
  simp [ContinuousLinearMap.toSpanSingleton]
  ring

/-- First and second derivatives of `ψ = s exp(f)`. -/
theorem D_psi (ex : K → K) (hex : ∀ z, HasDerivAt ex (ex z) z) (s : K) {f ψ : E → K} {x : E} (hf : ContDiffAt ℝ 2 f x)
    (hψ : ∀ᶠ y in 𝓝 x, ψ y = s * ex (f y)) (d d' : E) :
    (∀ᶠ y in 𝓝 x, DifferentiableAt ℝ ψ y ∧ D d ψ y = ψ y * D d f y) ∧
    D d' (D d ψ) x = ψ x * (D d' (D d f) x + D d' f x * D d f x) := by
  have h1 : ∀ᶠ y in 𝓝 x, DifferentiableAt ℝ ψ y ∧ D d ψ y = ψ y * D d f y := by
    filter_upwards [eventually_diff hf, hψ.eventually_nhds] with y hy hn
    obtain ⟨a, b⟩ := D_exp ex hex s hy d
    have he : ψ =ᶠ[𝓝 y] fun z => s * ex (f z) := hn
    refine ⟨he.differentiableAt_iff.2 a, ?_⟩
    rw [D_congr d he, b, hn.self_of_nhds]
  refine ⟨h1, ?_⟩
  have h2 : D d ψ =ᶠ[𝓝 x] fun y => ψ y * D d f y := h1.mono fun y h => h.2
  have h3 := h1.self_of_nhds.1
  rw [D_congr d' h2, D_mul d' h3 (diff_D hf d)]
  have h4 : D d' ψ x = ψ x * D d' f x := by
    obtain ⟨a, b⟩ := D_exp ex hex s (eventually_diff hf).self_of_nhds d'
    have he : ψ =ᶠ[𝓝 x] fun z => s * ex (f z) := hψ
    rw [D_congr d' he, b, hψ.self_of_nhds]
  rw [h4]
  ring

end

/-! ### Coordinates -/

theorem D_update {n : ℕ} {G : Type} [NormedAddCommGroup G] [NormedSpace ℝ G] {F : (Fin n → ℝ) → G} (i : Fin n) (x : Fin n → ℝ) (t : ℝ)
    (h : DifferentiableAt ℝ F (Function.update x i t)) :
    HasDerivAt (fun t => F (Function.update x i t)) (D (eye i) F (Function.update x i t)) t := by
  have := h.hasFDerivAt.comp_hasDerivAt t (hasDerivAt_update x i t)
  exact this

/-- The iterated one-variable derivative is the second derivative in that direction. -/
theorem second_eq {n : ℕ} {G : Type} [NormedAddCommGroup G] [NormedSpace ℝ G] {F : (Fin n → ℝ) → G} (i : Fin n) (x : Fin n → ℝ)
    (hd : ∀ᶠ y in 𝓝 x, DifferentiableAt ℝ F y) (hD : DifferentiableAt ℝ (D (eye i) F) x) : Spec.second i F x = D (eye i) (D (eye i) F) x := by
  unfold Spec.second
  have hx : Function.update x i (x i) = x := Function.update_eq_self i x
  have hc : Tendsto (Function.update x i) (𝓝 (x i)) (𝓝 x) := by
    have := (hasDerivAt_update x i (x i)).continuousAt.tendsto
    rwa [hx] at this
  have he : deriv (fun t => F (Function.update x i t)) =ᶠ[𝓝 (x i)] fun t => D (eye i) F (Function.update x i t) := by
    filter_upwards [hc.eventually hd] with t ht
    exact (D_update i x t ht).deriv
  rw [he.deriv_eq]
  have := D_update (F := D (eye i) F) i x (x i) (by rw [hx]; exact hD)
  rw [this.deriv, hx]

end Jaqmc.Kinetic
