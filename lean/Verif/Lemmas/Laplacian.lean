import Verif.Model.Laplacian
import Verif.Lemmas.Jet
/-! Generic part of the proof of C44: bundles of curves, and the handlers `wrap_linear` and `wrap_general`. -/
namespace Jaqmc.Laplacian
open Spec Filter Topology

variable {κ : Type} [Fintype κ]

section bundles
variable {E F G : Type} [NormedAddCommGroup E] [NormedSpace ℝ E] [NormedAddCommGroup F] [NormedSpace ℝ F]

theorem Spec.CurveLap.congr {γ δ : κ → ℝ → E} {x : E} {J : κ → E} {L : E} (h : CurveLap γ x J L)
    (he : ∀ k, ∀ᶠ t in 𝓝 0, δ k t = γ k t) : CurveLap δ x J L := by
  obtain ⟨c, h1, h2⟩ := h
  exact ⟨c, fun k => (h1 k).congr (he k), h2⟩

theorem Spec.CurveLap.const (x : E) : CurveLap (fun (_ : κ) _ => x) x 0 0 :=
  ⟨0, fun _ => Jet2.const x, by simp⟩

theorem Spec.CurveLap.clm {γ : κ → ℝ → E} {x : E} {J : κ → E} {L : E} (h : CurveLap γ x J L) (A : E →L[ℝ] F) :
    CurveLap (fun k t => A (γ k t)) (A x) (fun k => A (J k)) (A L) := by
  obtain ⟨c, h1, h2⟩ := h
  exact ⟨fun k => A (c k), fun k => (h1 k).clm A, by rw [h2, map_sum]⟩

theorem Spec.CurveLap.add {γ δ : κ → ℝ → E} {x y : E} {J K : κ → E} {L M : E} (h : CurveLap γ x J L) (h' : CurveLap δ y K M) :
    CurveLap (fun k t => γ k t + δ k t) (x + y) (fun k => J k + K k) (L + M) := by
  obtain ⟨c, h1, h2⟩ := h
  obtain ⟨c', h1', h2'⟩ := h'
  exact ⟨fun k => c k + c' k, fun k => (h1 k).add (h1' k), by rw [h2, h2', Finset.sum_add_distrib]⟩

theorem Spec.CurveLap.prodMk {γ : κ → ℝ → E} {δ : κ → ℝ → F} {x : E} {y : F} {J : κ → E} {K : κ → F} {L : E} {M : F}
    (h : CurveLap γ x J L) (h' : CurveLap δ y K M) :
    CurveLap (fun k t => (γ k t, δ k t)) (x, y) (fun k => (J k, K k)) (L, M) := by
  obtain ⟨c, h1, h2⟩ := h
  obtain ⟨c', h1', h2'⟩ := h'
  refine ⟨fun k => (c k, c' k), fun k => (h1 k).prodMk (h1' k), ?_⟩
  ext
  · simp [h2, Prod.fst_sum]
  · simp [h2', Prod.snd_sum]

theorem Spec.CurveLap.pi {ι : Type} [Fintype ι] {γ : κ → ℝ → ι → E} {x : ι → E} {J : κ → ι → E} {L : ι → E}
    (h : ∀ i, CurveLap (fun k t => γ k t i) (x i) (fun k => J k i) (L i)) : CurveLap γ x J L := by
  choose c h1 h2 using h
  refine ⟨fun k i => c i k, fun k => Jet2.pi fun i => h1 i k, ?_⟩
  funext i
  rw [h2 i, Finset.sum_apply]

theorem Spec.CurveLap.apply {ι : Type} [Fintype ι] {γ : κ → ℝ → ι → E} {x : ι → E} {J : κ → ι → E} {L : ι → E}
    (h : CurveLap γ x J L) (i : ι) : CurveLap (fun k t => γ k t i) (x i) (fun k => J k i) (L i) := by
  obtain ⟨c, h1, h2⟩ := h
  exact ⟨fun k => c k i, fun k => (h1 k).apply i, by rw [h2, Finset.sum_apply]⟩

theorem Spec.CurveLap.sum {ι : Type} [Fintype ι] {γ : ι → κ → ℝ → E} {x : ι → E} {J : ι → κ → E} {L : ι → E}
    (h : ∀ i, CurveLap (γ i) (x i) (J i) (L i)) :
    CurveLap (fun k t => ∑ i, γ i k t) (∑ i, x i) (fun k => ∑ i, J i k) (∑ i, L i) := by
  choose c h1 h2 using h
  refine ⟨fun k => ∑ i, c i k, fun k => Jet2.sum _ fun i _ => h1 i k, ?_⟩
  rw [Finset.sum_comm]
  exact Finset.sum_congr rfl fun i _ => h2 i

theorem Spec.CurveLap.mul {A : Type} [NormedRing A] [NormedAlgebra ℝ A] {γ δ : κ → ℝ → A} {x y : A} {J K : κ → A} {L M : A}
    (h : CurveLap γ x J L) (h' : CurveLap δ y K M) :
    CurveLap (fun k t => γ k t * δ k t) (x * y) (fun k => J k * y + x * K k) (L * y + x * M + 2 * ∑ k, J k * K k) := by
  obtain ⟨c, h1, h2⟩ := h
  obtain ⟨c', h1', h2'⟩ := h'
  refine ⟨_, fun k => (h1 k).mul (h1' k), ?_⟩
  rw [h2, h2', Finset.sum_add_distrib, Finset.sum_add_distrib, Finset.sum_mul, Finset.mul_sum, Finset.mul_sum]

theorem Spec.CurveLap.scomp {𝕜 : Type} [RCLike 𝕜] {f : 𝕜 → 𝕜} {γ : κ → ℝ → 𝕜} {x : 𝕜} {J : κ → 𝕜} {L : 𝕜}
    (hf : ContDiffAt 𝕜 2 f x) (h : CurveLap γ x J L) :
    CurveLap (fun k t => f (γ k t)) (f x) (fun k => deriv f x * J k)
      (deriv f x * L + deriv (deriv f) x * ∑ k, J k * J k) := by
  obtain ⟨c, h1, h2⟩ := h
  refine ⟨_, fun k => (h1 k).scomp hf, ?_⟩
  rw [h2, Finset.sum_add_distrib, Finset.mul_sum, Finset.mul_sum]

theorem Spec.CurveLap.comp {f : E → F} {γ : κ → ℝ → E} {x : E} {J : κ → E} {L : E} (hf : ContDiffAt ℝ 2 f x)
    (h : CurveLap γ x J L) :
    CurveLap (fun k t => f (γ k t)) (f x) (fun k => fderiv ℝ f x (J k))
      (fderiv ℝ f x L + ∑ k, fderiv ℝ (fderiv ℝ f) x (J k) (J k)) := by
  obtain ⟨c, h1, h2⟩ := h
  refine ⟨_, fun k => (h1 k).comp hf, ?_⟩
  rw [h2, Finset.sum_add_distrib, map_sum]

theorem Spec.CurveLap.tendsto {γ : κ → ℝ → E} {x : E} {J : κ → E} {L : E} (h : CurveLap γ x J L) (k : κ) :
    Tendsto (γ k) (𝓝 0) (𝓝 x) := by
  obtain ⟨c, h1, _⟩ := h
  exact (h1 k).tendsto

theorem Spec.CurveLap.unique {γ : κ → ℝ → E} {x y : E} {J K : κ → E} {L M : E} (h : CurveLap γ x J L)
    (h' : CurveLap γ y K M) : J = K ∧ L = M := by
  obtain ⟨c, h1, h2⟩ := h
  obtain ⟨c', h1', h2'⟩ := h'
  refine ⟨funext fun k => ((h1 k).unique (h1' k)).2.1, ?_⟩
  rw [h2, h2']
  exact Finset.sum_congr rfl fun k _ => ((h1 k).unique (h1' k)).2.2

end bundles
end Jaqmc.Laplacian
