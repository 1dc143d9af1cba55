import Verif.Lemmas.Ph
import Verif.Lemmas.LaplacianSeed
/-! Cholesky factorisation and the shifted function (C92). -/
namespace Jaqmc.Ph
open Filter Topology Matrix
open Jaqmc.Kinetic (D diff_D D_symm)
open Laplacian.Spec
open scoped BigOperators ContDiff

variable {n A : ℕ}

/-- Positive definite, in coordinates. -/
theorem posDef_iff3 (M : Mat) : M.PosDef ↔ (∀ i j, M i j = M j i) ∧ ∀ v : Pt, v ≠ 0 → 0 < ∑ i, ∑ j, v i * M i j * v j := by
  rw [Matrix.posDef_iff_dotProduct_mulVec]
  constructor
  · rintro ⟨h1, h2⟩
    refine ⟨fun i j => by simpa using (h1.apply i j).symm, fun v hv => ?_⟩
    have := h2 hv
    simp only [dotProduct, mulVec, Fin.sum_univ_three, Pi.star_apply, star_trivial] at this
    simp only [Fin.sum_univ_three]
    linarith
  · rintro ⟨h1, h2⟩
    refine ⟨Matrix.IsHermitian.ext fun i j => by simpa using h1 j i, fun v hv => ?_⟩
    have := h2 v hv
    simp only [dotProduct, mulVec, Fin.sum_univ_three, Pi.star_apply, star_trivial]
    simp only [Fin.sum_univ_three] at this
    linarith

/-- What the Cholesky algorithm returns. -/
theorem cholesky_mul {M L : Mat} (hM : ∀ i j, M i j = M j i) (h : cholesky M = some L) : L * Lᵀ = M ∧
    (∀ i, 0 < L i i) ∧ ∀ i j, i < j → L i j = 0 := by
  unfold cholesky at h
  simp only at h
  split at h
  · rename_i hp
    obtain ⟨h0, h1, h2⟩ := hp
    have s0 := Real.sq_sqrt h0.le
    have s1 := Real.sq_sqrt h1.le
    have s2 := Real.sq_sqrt h2.le
    have q0 := Real.sqrt_pos.mpr h0
    have q1 := Real.sqrt_pos.mpr h1
    have q2 := Real.sqrt_pos.mpr h2
    have e := Option.some.inj h
    have a1 := hM 0 1
    have a2 := hM 0 2
    have a3 := hM 1 2
    generalize Real.sqrt (M 2 2 - _ - _) = l22 at *
    generalize Real.sqrt (M 1 1 - _) = l11 at *
    generalize Real.sqrt (M 0 0) = l00 at *
    subst e
    refine ⟨?_, ?_, ?_⟩
    · ext i j
      rw [Matrix.mul_apply]
      simp only [Fin.sum_univ_three, Matrix.transpose_apply]
      fin_cases i <;> fin_cases j <;> simp <;> field_simp <;> field_simp at s0 s1 s2 <;> grind
    · intro i
      fin_cases i <;> simp [q0, q1, q2]
    · intro i j hij
      fin_cases i <;> fin_cases j <;> simp at hij ⊢
  · exact absurd h (by simp)

theorem cholesky_isSome {M : Mat} (hM : ∀ i j, M i j = M j i) : (cholesky M).isSome ↔ M.PosDef := by
  constructor
  · intro h
    obtain ⟨L, hL⟩ := Option.isSome_iff_exists.mp h
    obtain ⟨e, hd, hu⟩ := cholesky_mul hM hL
    rw [posDef_iff3]
    refine ⟨hM, fun v hv => ?_⟩
    have hq : ∑ i, ∑ j, v i * M i j * v j = ∑ k, (∑ i, v i * L i k) ^ 2 := by
      have hM' : ∀ i j, M i j = ∑ k, L i k * L j k := fun i j => by rw [← e, Matrix.mul_apply]; rfl
      simp only [hM', Fin.sum_univ_three]
      ring
    rw [hq]
    by_contra hc
    have z : ∀ k, ∑ i, v i * L i k = 0 := by
      have := (Finset.sum_eq_zero_iff_of_nonneg (s := Finset.univ) (f := fun k => (∑ i, v i * L i k) ^ 2) fun k _ => sq_nonneg _).mp
        (le_antisymm (not_lt.mp hc) (Finset.sum_nonneg fun k _ => sq_nonneg _))
      exact fun k => pow_eq_zero_iff (two_ne_zero) |>.mp (this k (Finset.mem_univ _))
    have z0 := z 0
    have z1 := z 1
    have z2 := z 2
    simp only [Fin.sum_univ_three, hu 0 1 (by decide), hu 0 2 (by decide), hu 1 2 (by decide)] at z0 z1 z2
    have v2 : v 2 = 0 := by simpa [(hd 2).ne'] using z2
    have v1 : v 1 = 0 := by simpa [(hd 1).ne', v2] using z1
    have v0 : v 0 = 0 := by simpa [(hd 0).ne', v2, v1] using z0
    exact hv (funext fun i => by fin_cases i <;> simp [v0, v1, v2])
  · intro h
    obtain ⟨_, hp⟩ := (posDef_iff3 M).mp h
    have a1 := hM 0 1
    have a2 := hM 0 2
    have a3 := hM 1 2
    have h0 : 0 < M 0 0 := h.diag_pos
    have q0 := Real.sqrt_pos.mpr h0
    have s0 := Real.sq_sqrt h0.le
    have h1 : 0 < M 1 1 - (M 1 0 / Real.sqrt (M 0 0)) ^ 2 := by
      have := hp ![-(M 1 0) / M 0 0, 1, 0] (fun h => by simpa using congrFun h 1)
      simp only [Fin.sum_univ_three] at this
      rw [div_pow, s0]
      simp at this
      convert this using 1
      rw [a1]
      field_simp
      ring
    have q1 := Real.sqrt_pos.mpr h1
    have s1 := Real.sq_sqrt h1.le
    unfold cholesky
    simp only
    rw [if_pos]
    · rfl
    · refine ⟨h0, h1, ?_⟩
      generalize Real.sqrt (M 1 1 - (M 1 0 / Real.sqrt (M 0 0)) ^ 2) = l11 at *
      generalize Real.sqrt (M 0 0) = l00 at *
      have := hp ![-(M 1 0 / l00 * (-((M 2 1 - M 2 0 / l00 * (M 1 0 / l00)) / l11) / l11) + M 2 0 / l00) / l00,
        -((M 2 1 - M 2 0 / l00 * (M 1 0 / l00)) / l11) / l11, 1] (fun h => by simpa using congrFun h 2)
      convert this using 1
      simp only [Fin.sum_univ_three]
      simp
      rw [a1, a2, a3, ← s0]
      have e1 : M 1 1 = l11 ^ 2 + (M 1 0 / l00) ^ 2 := by rw [s1]; ring
      rw [e1]
      field_simp
      ring

/-! ### The shifted function -/

theorem shifted_line (x : Conf n) (L : Fin n → Mat) (e : Fin n) (k : Fin 3) (t : ℝ) :
    shifted x L (0 + t • dir e k) = x + t • ∑ i, L e i k • dir e i := by
  funext e' i
  simp only [shifted, dir, Pi.add_apply, Pi.zero_apply, zero_add, Pi.smul_apply, Finset.sum_apply, smul_eq_mul]
  congr 1
  rcases eq_or_ne e' e with rfl | h
  · simp [Pi.single_apply, Fin.sum_univ_three]
    fin_cases i <;> fin_cases k <;> simp <;> ring
  · simp [h]

/-- Second derivatives are bilinear. -/
theorem D_D_eq {K : Type} [NormedAddCommGroup K] [NormedSpace ℝ K] {f : Conf n → K} {x : Conf n} (hf : ContDiffAt ℝ 2 f x) (d d' : Conf n) :
    D d' (D d f) x = fderiv ℝ (fderiv ℝ f) x d' d := by
  have h1 : ContDiffAt ℝ 1 (fderiv ℝ f) x := hf.fderiv_right (by norm_num)
  unfold D
  rw [fderiv_clm_apply (h1.differentiableAt (by norm_num)) (differentiableAt_const _)]
  simp

/-- What `forward_laplacian` returns for the shifted function. -/
theorem shifted_lap {K : Type} [NormedAddCommGroup K] [NormedSpace ℝ K] {f : Conf n → K} {x : Conf n} (hf : ContDiffAt ℝ 2 f x)
    (L : Fin n → Mat) {v : K} {jac : Fin n × Fin 3 → K} {lap : K}
    (h : IsLaplacian (0 : Conf n) (fun k : Fin n × Fin 3 => dir k.1 k.2) (fun y => f (shifted x L y)) v jac lap) :
    (∀ e k, jac (e, k) = ∑ i, L e i k • D (dir e i) f x) ∧
    lap = ∑ e, ∑ i, ∑ j, ((L e * (L e)ᵀ) i j) • D (dir e i) (D (dir e j) f) x := by
  obtain ⟨rfl, h⟩ := h
  have e0 : shifted x L 0 = x := by funext e i; simp [shifted]
  have h3 := CurveLap.comp hf (Laplacian.CurveLap_line x fun k : Fin n × Fin 3 => ∑ i, L k.1 i k.2 • dir k.1 i)
  have hc : (fun (k : Fin n × Fin 3) (t : ℝ) => f (shifted x L (0 + t • dir k.1 k.2))) =
      fun k t => f (x + t • ∑ i, L k.1 i k.2 • dir k.1 i) := by
    funext k t
    rw [shifted_line]
  rw [hc] at h
  simp only [e0] at h
  obtain ⟨e1, e2⟩ := h.unique h3
  constructor
  · intro e k
    rw [e1]
    simp [D, map_sum]
  · rw [e2, map_zero, zero_add, Fintype.sum_prod_type]
    refine Finset.sum_congr rfl fun e _ => ?_
    simp only [D_D_eq hf, Matrix.mul_apply, Matrix.transpose_apply, Fin.sum_univ_three, map_add, map_smul, _root_.add_apply, _root_.smul_apply]
    module

theorem factors_some (x : Conf n) (atoms : Fin A → Pt) (l2 : Fin n → Fin A → ℝ) :
    (factors x atoms l2).isSome ↔ ∀ e, (mass (x e) atoms (l2 e)).PosDef := by
  unfold factors
  split
  · rename_i h
    exact ⟨fun _ e => (cholesky_isSome (mass_symm _ _ _)).mp (h e), fun _ => rfl⟩
  · rename_i h
    constructor
    · intro h'; cases h'
    · intro h'
      exact absurd (fun e => (cholesky_isSome (mass_symm _ _ _)).mpr (h' e)) h

theorem factors_mul {x : Conf n} {atoms : Fin A → Pt} {l2 : Fin n → Fin A → ℝ} {L : Fin n → Mat} (h : factors x atoms l2 = some L) (e : Fin n) :
    L e * (L e)ᵀ = mass (x e) atoms (l2 e) := by
  unfold factors at h
  split at h
  · rename_i hs
    have := Option.some.inj h
    subst this
    obtain ⟨L, hL⟩ := Option.isSome_iff_exists.mp (hs e)
    simp only [hL, Option.getD_some]
    exact (cholesky_mul (mass_symm _ _ _) hL).1
  · cases h

/-- The sum of the products of the Jacobian in the shifted coordinates, through a map `c` (the identity, or conjugation). -/
theorem shifted_quad {K : Type} [NormedField K] [NormedAlgebra ℝ K] (c : K →+* K) (hc : ∀ (r : ℝ) z, c (r • z) = r • c z) (g : Fin n → Fin 3 → K)
    (L : Fin n → Mat) (jac : Fin n × Fin 3 → K) (h : ∀ e k, jac (e, k) = ∑ i, L e i k • g e i) :
    ∑ k, c (jac k) * jac k = ∑ e, ∑ i, ∑ j, ((L e * (L e)ᵀ) i j) • (c (g e i) * g e j) := by
  rw [Fintype.sum_prod_type]
  refine Finset.sum_congr rfl fun e _ => ?_
  simp only [h, Matrix.mul_apply, Matrix.transpose_apply, Fin.sum_univ_three, map_add, hc]
  simp only [Algebra.smul_def, map_mul, map_add]
  ring

end Jaqmc.Ph
