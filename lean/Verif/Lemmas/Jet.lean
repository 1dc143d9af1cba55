import Verif.Spec.Laplacian
import Mathlib.Analysis.Calculus.Deriv.Prod
import Mathlib.Analysis.Calculus.Deriv.Pi
import Mathlib.Analysis.Calculus.Deriv.Comp
import Mathlib.Analysis.Calculus.Deriv.Mul
import Mathlib.Analysis.Calculus.Deriv.Add
import Mathlib.Analysis.Calculus.Deriv.Inv
import Mathlib.Analysis.Calculus.ContDiff.Operations
import Mathlib.Analysis.Calculus.FDeriv.CompCLM
import Mathlib.Analysis.RCLike.Basic
import Mathlib.Tactic.Ring
/-! Calculus of second-order jets of curves. -/
namespace Jaqmc.Laplacian.Spec
open Filter Topology

variable {E F G : Type} [NormedAddCommGroup E] [NormedSpace ℝ E] [NormedAddCommGroup F] [NormedSpace ℝ F]
  [NormedAddCommGroup G] [NormedSpace ℝ G]

theorem Jet2.congr {g h : ℝ → E} {a b c : E} (hg : Jet2 g a b c) (he : ∀ᶠ t in 𝓝 0, h t = g t) : Jet2 h a b c := by
  obtain ⟨h0, g', h1, h2, h3⟩ := hg
  refine ⟨he.self_of_nhds.trans h0, g', ?_, h2, h3⟩
  filter_upwards [h1, he.eventually_nhds] with t ht hh
  exact ht.congr_of_eventuallyEq hh

theorem Jet2.const (a : E) : Jet2 (fun _ : ℝ => a) a 0 0 :=
  ⟨rfl, fun _ => 0, Eventually.of_forall fun t => hasDerivAt_const t a, rfl, hasDerivAt_const _ _⟩

theorem Jet2.line (p d : E) : Jet2 (fun t : ℝ => p + t • d) p d 0 := by
  refine ⟨by simp, fun _ => d, Eventually.of_forall fun t => ?_, rfl, hasDerivAt_const _ _⟩
  simpa using ((hasDerivAt_id t).smul_const d).const_add p

theorem Jet2.continuousAt {g : ℝ → E} {a b c : E} (hg : Jet2 g a b c) : ContinuousAt g 0 := by
  obtain ⟨_, g', h1, _, _⟩ := hg
  exact h1.self_of_nhds.continuousAt

theorem Jet2.tendsto {g : ℝ → E} {a b c : E} (hg : Jet2 g a b c) : Tendsto g (𝓝 0) (𝓝 a) := by
  have := hg.continuousAt
  rw [ContinuousAt, hg.1] at this
  exact this

/-- Uniqueness. -/
theorem Jet2.unique {g : ℝ → E} {a b c a' b' c' : E} (h : Jet2 g a b c) (h' : Jet2 g a' b' c') :
    a = a' ∧ b = b' ∧ c = c' := by
  obtain ⟨h0, g1, h1, h2, h3⟩ := h
  obtain ⟨h0', g1', h1', h2', h3'⟩ := h'
  have he : g1 =ᶠ[𝓝 0] g1' := by
    filter_upwards [h1, h1'] with t ht ht'
    exact ht.unique ht'
  refine ⟨h0.symm.trans h0', ?_, ?_⟩
  · rw [← h2, ← h2']; exact he.self_of_nhds
  · exact (h3.congr_of_eventuallyEq he.symm).unique h3'

theorem Jet2.clm {g : ℝ → E} {a b c : E} (hg : Jet2 g a b c) (A : E →L[ℝ] F) :
    Jet2 (fun t => A (g t)) (A a) (A b) (A c) := by
  obtain ⟨h0, g', h1, h2, h3⟩ := hg
  refine ⟨by simp only [h0], fun t => A (g' t), ?_, by simp only [h2], ?_⟩
  · filter_upwards [h1] with t ht
    exact A.hasFDerivAt.comp_hasDerivAt t ht
  · exact A.hasFDerivAt.comp_hasDerivAt 0 h3

theorem Jet2.prodMk {g : ℝ → E} {h : ℝ → F} {a b c : E} {a' b' c' : F} (hg : Jet2 g a b c) (hh : Jet2 h a' b' c') :
    Jet2 (fun t => (g t, h t)) (a, a') (b, b') (c, c') := by
  obtain ⟨h0, g', h1, h2, h3⟩ := hg
  obtain ⟨k0, k', k1, k2, k3⟩ := hh
  refine ⟨by simp only [h0, k0], fun t => (g' t, k' t), ?_, by simp only [h2, k2], h3.prodMk k3⟩
  filter_upwards [h1, k1] with t ht kt
  exact ht.prodMk kt

theorem Jet2.pi {ι : Type} [Fintype ι] {g : ℝ → ι → E} {a b c : ι → E}
    (h : ∀ i, Jet2 (fun t => g t i) (a i) (b i) (c i)) : Jet2 g a b c := by
  choose h0 g' h1 h2 h3 using h
  refine ⟨funext h0, fun t i => g' i t, ?_, funext h2, hasDerivAt_pi.2 h3⟩
  filter_upwards [eventually_all.2 h1] with t ht
  exact hasDerivAt_pi.2 ht

theorem Jet2.apply {ι : Type} [Fintype ι] {g : ℝ → ι → E} {a b c : ι → E} (h : Jet2 g a b c) (i : ι) :
    Jet2 (fun t => g t i) (a i) (b i) (c i) := by
  obtain ⟨h0, g', h1, h2, h3⟩ := h
  refine ⟨by simp only [h0], fun t => g' t i, ?_, by simp only [h2], hasDerivAt_pi.1 h3 i⟩
  filter_upwards [h1] with t ht
  exact hasDerivAt_pi.1 ht i

theorem Jet2.add {g h : ℝ → E} {a b c a' b' c' : E} (hg : Jet2 g a b c) (hh : Jet2 h a' b' c') :
    Jet2 (fun t => g t + h t) (a + a') (b + b') (c + c') := by
  obtain ⟨h0, g', h1, h2, h3⟩ := hg
  obtain ⟨k0, k', k1, k2, k3⟩ := hh
  refine ⟨by simp only [h0, k0], fun t => g' t + k' t, ?_, by simp only [h2, k2], h3.add k3⟩
  filter_upwards [h1, k1] with t ht kt
  exact ht.add kt

theorem Jet2.sum {ι : Type} (s : Finset ι) {g : ι → ℝ → E} {a b c : ι → E}
    (h : ∀ i ∈ s, Jet2 (g i) (a i) (b i) (c i)) :
    Jet2 (fun t => ∑ i ∈ s, g i t) (∑ i ∈ s, a i) (∑ i ∈ s, b i) (∑ i ∈ s, c i) := by
  classical
  induction s using Finset.induction_on with
  | empty => simpa using Jet2.const (0 : E)
  | insert i s hi ih =>
    simp only [Finset.sum_insert hi]
    exact (h i (Finset.mem_insert_self i s)).add (ih fun j hj => h j (Finset.mem_insert_of_mem hj))

section Mul
variable {A : Type} [NormedRing A] [NormedAlgebra ℝ A]

theorem Jet2.mul {g h : ℝ → A} {a b c a' b' c' : A} (hg : Jet2 g a b c) (hh : Jet2 h a' b' c') :
    Jet2 (fun t => g t * h t) (a * a') (b * a' + a * b') (c * a' + a * c' + 2 * (b * b')) := by
  obtain ⟨h0, g', h1, h2, h3⟩ := hg
  obtain ⟨k0, k', k1, k2, k3⟩ := hh
  refine ⟨by simp only [h0, k0], fun t => g' t * h t + g t * k' t, ?_, by simp only [h0, k0, h2, k2], ?_⟩
  · filter_upwards [h1, k1] with t ht kt
    exact ht.mul kt
  · have := (h3.mul k1.self_of_nhds).add (h1.self_of_nhds.mul k3)
    refine this.congr_deriv ?_
    rw [h0, k0, h2, k2, two_mul]
    abel

end Mul

/-- The chain rule for a function of one number, differentiable twice over `𝕜`. -/
theorem Jet2.scomp {𝕜 : Type} [RCLike 𝕜] {f : 𝕜 → 𝕜} {g : ℝ → 𝕜} {a b c : 𝕜} (hf : ContDiffAt 𝕜 2 f a)
    (hg : Jet2 g a b c) :
    Jet2 (fun t => f (g t)) (f a) (deriv f a * b) (deriv f a * c + deriv (deriv f) a * (b * b)) := by
  obtain ⟨h0, g', h1, h2, h3⟩ := hg
  have hd : ∀ᶠ z in 𝓝 a, HasDerivAt f (deriv f z) z := by
    have : ∀ᶠ z in 𝓝 a, ContDiffAt 𝕜 2 f z := hf.eventually (by simp)
    filter_upwards [this] with z hz
    exact (hz.differentiableAt (by simp)).hasDerivAt
  have hdd : HasDerivAt (deriv f) (deriv (deriv f) a) a := by
    have : ContDiffAt 𝕜 1 (deriv f) a := by
      have h := hf.fderiv_right (m := 1) (by norm_num)
      have e : deriv f = fun z => fderiv 𝕜 f z 1 := by funext z; simp
      rw [e]
      exact h.clm_apply contDiffAt_const
    exact (this.differentiableAt (by simp)).hasDerivAt
  have ht0 : Tendsto g (𝓝 0) (𝓝 a) := Jet2.tendsto ⟨h0, g', h1, h2, h3⟩
  refine ⟨by simp only [h0], fun t => g' t * deriv f (g t), ?_, by simp only [h0, h2, mul_comm], ?_⟩
  · filter_upwards [h1, ht0.eventually hd] with t ht hz
    exact hz.scomp t ht
  · have h4 : HasDerivAt (fun t => deriv f (g t)) (b * deriv (deriv f) a) 0 := by
      have h5 : HasDerivAt (deriv f) (deriv (deriv f) a) (g 0) := by rw [h0]; exact hdd
      have := h5.scomp 0 h1.self_of_nhds
      rw [h2] at this; exact this
    refine (h3.mul h4).congr_deriv ?_
    rw [h0, h2]; ring

/-- The chain rule for a function between real normed spaces. -/
theorem Jet2.comp {f : E → G} {g : ℝ → E} {a b c : E} (hf : ContDiffAt ℝ 2 f a) (hg : Jet2 g a b c) :
    Jet2 (fun t => f (g t)) (f a) (fderiv ℝ f a b) (fderiv ℝ f a c + fderiv ℝ (fderiv ℝ f) a b b) := by
  obtain ⟨h0, g', h1, h2, h3⟩ := hg
  have hd : ∀ᶠ z in 𝓝 a, HasFDerivAt f (fderiv ℝ f z) z := by
    have : ∀ᶠ z in 𝓝 a, ContDiffAt ℝ 2 f z := hf.eventually (by simp)
    filter_upwards [this] with z hz
    exact (hz.differentiableAt (by simp)).hasFDerivAt
  have hdd : HasFDerivAt (fderiv ℝ f) (fderiv ℝ (fderiv ℝ f) a) a := by
    have : ContDiffAt ℝ 1 (fderiv ℝ f) a := hf.fderiv_right (m := 1) (by norm_num)
    exact (this.differentiableAt (by simp)).hasFDerivAt
  have ht0 : Tendsto g (𝓝 0) (𝓝 a) := Jet2.tendsto ⟨h0, g', h1, h2, h3⟩
  refine ⟨by simp only [h0], fun t => fderiv ℝ f (g t) (g' t), ?_, by simp only [h0, h2], ?_⟩
  · filter_upwards [h1, ht0.eventually hd] with t ht hz
    exact hz.comp_hasDerivAt t ht
  · have h4 : HasDerivAt (fun t => fderiv ℝ f (g t)) (fderiv ℝ (fderiv ℝ f) a b) 0 := by
      have h5 : HasFDerivAt (fderiv ℝ f) (fderiv ℝ (fderiv ℝ f) a) (g 0) := by rw [h0]; exact hdd
      have := h5.comp_hasDerivAt 0 h1.self_of_nhds
      rw [h2] at this; exact this
    refine (h4.clm_apply h3).congr_deriv ?_
    rw [h0, h2, add_comm]

end Jaqmc.Laplacian.Spec
