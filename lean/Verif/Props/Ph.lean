import Verif.Lemmas.PhForward
/-! C92: the derivative energy of the pseudo-Hamiltonian. -/
namespace Jaqmc.Ph.Props
open Filter Topology Matrix
open Jaqmc.Kinetic (pd pdC D D_psi diff_D pdC_eq pd_pd eventually_diff)
open Laplacian.Spec
open Spec
open scoped BigOperators ContDiff

variable {n A : ℕ}

theorem radius_eq (p R : Pt) : radius p R = norm3 (rel p R) := rfl

theorem radius_pos {p R : Pt} (h : p ≠ R) : 0 < radius p R :=
  norm3_pos fun h0 => h (funext fun k => sub_eq_zero.mp (congrFun h0 k))

theorem invR_radius (p R : Pt) (c : ℝ) : c * invR (norm3 (rel p R)) = c / radius p R := by
  rw [invR_eq _ (norm3_nonneg _), div_eq_mul_inv, radius_eq]

/-- The mass matrix as a quadratic form. -/
theorem massForm_eq (p : Pt) (atoms : Fin A → Pt) (l2 : Fin A → ℝ) (u : Pt) :
    ∑ i, ∑ j, u i * mass p atoms l2 i j * u j = massForm p atoms (fun a => l2 a / radius p (atoms a)) u := by
  have h := mass_contract p atoms l2 (fun i j => u i * u j)
  have e : ∑ i, ∑ j, u i * mass p atoms l2 i j * u j = ∑ i, ∑ j, mass p atoms l2 i j • (u i * u j) :=
    Finset.sum_congr rfl fun i _ => Finset.sum_congr rfl fun j _ => by rw [smul_eq_mul]; ring
  rw [e, h]
  unfold massForm
  congr 1
  · rw [smul_eq_mul]; norm_num [pow_two]
  · refine Finset.sum_congr rfl fun a _ => ?_
    rw [invR_radius, smul_eq_mul, radius_eq, norm3_sq]
    congr 1
    simp only [Fin.sum_univ_three, smul_eq_mul, rel]
    ring

theorem posDef_mass (p : Pt) (atoms : Fin A → Pt) (l2 : Fin A → ℝ) :
    (mass p atoms l2).PosDef ↔ ∀ u : Pt, u ≠ 0 → 0 < massForm p atoms (fun a => l2 a / radius p (atoms a)) u := by
  rw [posDef_iff3]
  simp only [massForm_eq]
  exact ⟨fun h => h.2, fun h => ⟨mass_symm _ _ _, h⟩⟩

theorem guarded_isSome (M : Mat) : (guarded M).isSome ↔ M.PosDef := by
  unfold guarded
  split <;> simp [*]

/-- Where the wavefunction is continuous its sign is locally constant. -/
theorem locally {f ψ : Conf n → ℝ} {x : Conf n} (hf : ContDiffAt ℝ 2 f x) (h : LogOf f ψ x) (hc : ContinuousAt ψ x) :
    ∃ s : ℝ, (∀ᶠ y in 𝓝 x, ψ y = s * Real.exp (f y)) ∧ ContDiffAt ℝ 2 ψ x := by
  have key : ∃ s : ℝ, ∀ᶠ y in 𝓝 x, ψ y = s * Real.exp (f y) := by
    have hx := h.self_of_nhds
    have hp := Real.exp_pos (f x)
    rcases abs_cases (ψ x) with ⟨h1, h2⟩ | ⟨h1, h2⟩
    · refine ⟨1, ?_⟩
      have : 0 < ψ x := by linarith
      filter_upwards [hc.eventually (lt_mem_nhds this), h] with y hy h
      rw [one_mul, ← h, abs_of_pos hy]
    · refine ⟨-1, ?_⟩
      filter_upwards [hc.eventually (gt_mem_nhds h2), h] with y hy h
      rw [neg_one_mul, ← h, abs_of_neg hy, neg_neg]
  obtain ⟨s, hs⟩ := key
  exact ⟨s, hs, (contDiffAt_const.mul hf.exp).congr_of_eventuallyEq hs⟩

/-- The value of the standard backend, when no matrix is NaN. -/
theorem standard_eq (f : Conf n → ℝ) (x : Conf n) (atoms : Fin A → Pt) (l2 : Fin n → Fin A → ℝ) (hx : ∀ e a, x e ≠ atoms a)
    (h : ∀ e, (mass (x e) atoms (l2 e)).PosDef) :
    standard f x atoms l2 = some (contract (fun e => mass (x e) atoms (l2 e)) (fun e => firstOrderForward (x e) atoms (l2 e))
      (fun e i => D (dir e i) f x) (fun e i j => D (dir e j) (D (dir e i) f) x)) := by
  unfold standard
  simp only
  rw [if_pos fun e => (guarded_isSome _).mpr (h e)]
  have e1 : (fun e => firstOrderStandard (x e) atoms (l2 e)) = fun e => firstOrderForward (x e) atoms (l2 e) :=
    funext fun e => funext fun k => firstOrder_eq (x e) atoms (l2 e) (hx e) k
  rw [e1]
  rfl

theorem standard_none (f : Conf n → ℝ) (x : Conf n) (atoms : Fin A → Pt) (l2 : Fin n → Fin A → ℝ)
    (h : ¬ ∀ e, (mass (x e) atoms (l2 e)).PosDef) : standard f x atoms l2 = none := by
  unfold standard
  simp only
  rw [if_neg fun h' => h fun e => (guarded_isSome _).mp (h' e)]

/-- C92 (standard backend): the energy times `ψ` is `-½ Δψ + Σ (l2 / r) L² ψ`, the squared angular momentum of every electron
about every pseudo-Hamiltonian atom, for every smooth real wavefunction with `log|ψ| = f`. -/
theorem c92_standard (f ψ : Conf n → ℝ) (x : Conf n) (hf : ContDiffAt ℝ 2 f x) (h : LogOf f ψ x) (hc : ContinuousAt ψ x)
    (atoms : Fin A → Pt) (hx : ∀ e a, x e ≠ atoms a) (l2 : Fin n → Fin A → ℝ) (E : ℝ) (hE : standard f x atoms l2 = some E) :
    E * ψ x = derivativePart atoms (fun e a => l2 e a / radius (x e) (atoms a)) ψ x := by
  obtain ⟨s, hs, h2⟩ := locally hf h hc
  by_cases hp : ∀ e, (mass (x e) atoms (l2 e)).PosDef
  · rw [standard_eq f x atoms l2 hx hp] at hE
    rw [← Option.some.inj hE, contract_value Real.exp Real.hasDerivAt_exp s hf h2 hs]
    unfold derivativePart
    simp only [invR_radius]
  · rw [standard_none f x atoms l2 hp] at hE
    cases hE

/-- C92 (standard backend, complex wavefunctions `ψ = exp(log psi)`). -/
theorem c92_standard_complex (f : Conf n → ℂ) (x : Conf n) (hf : ContDiffAt ℝ 2 f x)
    (atoms : Fin A → Pt) (hx : ∀ e a, x e ≠ atoms a) (l2 : Fin n → Fin A → ℝ) (E : ℂ) (hE : standardC f x atoms l2 = some E) :
    E * Complex.exp (f x) = derivativePart atoms (fun e a => l2 e a / radius (x e) (atoms a)) (fun y => Complex.exp (f y)) x := by
  have h2 : ContDiffAt ℝ 2 (fun y => Complex.exp (f y)) x := hf.cexp
  unfold standardC at hE
  simp only at hE
  split at hE
  · rename_i hp
    have e1 : (fun e => firstOrderStandard (x e) atoms (l2 e)) = fun e => firstOrderForward (x e) atoms (l2 e) :=
      funext fun e => funext fun k => firstOrder_eq (x e) atoms (l2 e) (hx e) k
    simp only [e1, pd_pd _ _ hf, pdC_eq _ (eventually_diff hf).self_of_nhds] at hE
    have := contract_value Complex.exp Complex.hasDerivAt_exp 1 hf h2 (Eventually.of_forall fun y => (one_mul _).symm) atoms l2
    rw [← Option.some.inj hE, this]
    unfold derivativePart
    simp only [invR_radius]
  · cases hE

/-- The value of the forward backend, when no matrix is NaN. -/
theorem forward_eq (f : Conf n → ℝ) (x : Conf n) (hf : ContDiffAt ℝ 2 f x) (atoms : Fin A → Pt) (l2 : Fin n → Fin A → ℝ)
    (L : Fin n → Mat) (hL : factors x atoms l2 = some L) (v : ℝ) (jac : Fin n × Fin 3 → ℝ) (lap : ℝ)
    (h : IsLaplacian (0 : Conf n) (fun k : Fin n × Fin 3 => dir k.1 k.2) (fun y => f (shifted x L y)) v jac lap) :
    forward f x atoms l2 jac lap = some (contract (fun e => mass (x e) atoms (l2 e)) (fun e => firstOrderForward (x e) atoms (l2 e))
      (fun e i => D (dir e i) f x) (fun e i j => D (dir e j) (D (dir e i) f) x)) := by
  obtain ⟨h1, h2⟩ := shifted_lap hf L h
  have h3 := shifted_quad (RingHom.id ℝ) (fun _ _ => rfl) (fun e i => D (dir e i) f x) L jac h1
  simp only [RingHom.id_apply] at h3
  unfold forward contract
  rw [hL, Option.map_some]
  simp only
  rw [h2, h3]
  simp only [factors_mul hL]
  congr 1
  rw [← sub_eq_neg_add]
  congr 1

/-- C92 (forward backend): the same operator, also with electrons on atoms.  `jac` and `lap` are what `forward_laplacian` returns
(C44) for the function of the shifts, at zero shift. -/
theorem c92_forward (f ψ : Conf n → ℝ) (x : Conf n) (hf : ContDiffAt ℝ 2 f x) (h : LogOf f ψ x) (hc : ContinuousAt ψ x)
    (atoms : Fin A → Pt) (l2 : Fin n → Fin A → ℝ) (L : Fin n → Mat) (hL : factors x atoms l2 = some L)
    (v : ℝ) (jac : Fin n × Fin 3 → ℝ) (lap : ℝ)
    (hlap : IsLaplacian (0 : Conf n) (fun k : Fin n × Fin 3 => dir k.1 k.2) (fun y => f (shifted x L y)) v jac lap) :
    ∃ E, forward f x atoms l2 jac lap = some E ∧
      E * ψ x = derivativePart atoms (fun e a => l2 e a / radius (x e) (atoms a)) ψ x := by
  obtain ⟨s, hs, h2⟩ := locally hf h hc
  refine ⟨_, forward_eq f x hf atoms l2 L hL v jac lap hlap, ?_⟩
  rw [contract_value Real.exp Real.hasDerivAt_exp s hf h2 hs]
  unfold derivativePart
  simp only [invR_radius]

/-- C92: away from the atoms the two backends return the same number. -/
theorem c92_backends (f : Conf n → ℝ) (x : Conf n) (hf : ContDiffAt ℝ 2 f x) (atoms : Fin A → Pt) (hx : ∀ e a, x e ≠ atoms a)
    (l2 : Fin n → Fin A → ℝ) (L : Fin n → Mat) (hL : factors x atoms l2 = some L) (v : ℝ) (jac : Fin n × Fin 3 → ℝ) (lap : ℝ)
    (hlap : IsLaplacian (0 : Conf n) (fun k : Fin n × Fin 3 => dir k.1 k.2) (fun y => f (shifted x L y)) v jac lap) :
    forward f x atoms l2 jac lap = standard f x atoms l2 := by
  rw [forward_eq f x hf atoms l2 L hL v jac lap hlap, standard_eq f x atoms l2 hx]
  exact (factors_some x atoms l2).mp (by rw [hL]; rfl)

/-- C92: a number comes out, of either backend, exactly when the inverse mass tensor of every electron is positive definite;
otherwise the result is NaN. -/
theorem c92_nan (f : Conf n → ℝ) (x : Conf n) (atoms : Fin A → Pt) (l2 : Fin n → Fin A → ℝ) (jac : Fin n × Fin 3 → ℝ) (lap : ℝ) :
    ((standard f x atoms l2).isSome ↔
      ∀ e (u : Pt), u ≠ 0 → 0 < massForm (x e) atoms (fun a => l2 e a / radius (x e) (atoms a)) u) ∧
    ((forward f x atoms l2 jac lap).isSome ↔
      ∀ e (u : Pt), u ≠ 0 → 0 < massForm (x e) atoms (fun a => l2 e a / radius (x e) (atoms a)) u) := by
  have key : (∀ e (u : Pt), u ≠ 0 → 0 < massForm (x e) atoms (fun a => l2 e a / radius (x e) (atoms a)) u) ↔
      ∀ e, (mass (x e) atoms (l2 e)).PosDef := forall_congr' fun e => (posDef_mass _ _ _).symm
  rw [key]
  constructor
  · unfold standard
    simp only [guarded_isSome]
    split
    · rename_i h
      exact ⟨fun _ e => (guarded_isSome _).mp (h e), fun _ => rfl⟩
    · rename_i h
      exact ⟨fun h' => (by cases h'), fun h' => absurd (fun e => (guarded_isSome _).mpr (h' e)) h⟩
  · unfold forward
    rw [Option.isSome_map, factors_some]

/-- C92 (what the Cholesky factors are): the factor of a symmetric matrix is lower triangular with a positive diagonal and `L Lᵀ`
is the matrix; there is one exactly when the matrix is positive definite. -/
theorem c92_cholesky (M : Mat) (hM : ∀ i j, M i j = M j i) :
    ((∃ L, cholesky M = some L) ↔ ∀ u : Pt, u ≠ 0 → 0 < ∑ i, ∑ j, u i * M i j * u j) ∧
    ∀ L, cholesky M = some L → (∀ i j, ∑ k, L i k * L j k = M i j) ∧ (∀ i, 0 < L i i) ∧ ∀ i j, i < j → L i j = 0 := by
  constructor
  · rw [← Option.isSome_iff_exists, cholesky_isSome hM, posDef_iff3]
    exact ⟨fun h => h.2, fun h => ⟨hM, h⟩⟩
  · intro L hL
    obtain ⟨h1, h2, h3⟩ := cholesky_mul hM hL
    exact ⟨fun i j => by rw [← h1, Matrix.mul_apply]; rfl, h2, h3⟩

theorem cauchy3 (a b : Pt) : (∑ k, a k * b k) ^ 2 ≤ (∑ k, a k ^ 2) * ∑ k, b k ^ 2 := Finset.sum_mul_sq_le_sq_mul_sq _ a b

theorem sq_pos_sum {u : Pt} (hu : u ≠ 0) : 0 < ∑ k, u k ^ 2 := by
  rw [← norm3_sq]
  have := norm3_pos hu
  positivity

theorem perp_exists (w : Pt) : ∃ u : Pt, u ≠ 0 ∧ ∑ k, w k * u k = 0 := by
  by_cases h : w 0 = 0 ∧ w 1 = 0
  · exact ⟨![1, 0, 0], fun h' => by simpa using congrFun h' 0, by simp [Fin.sum_univ_three, h.1]⟩
  · refine ⟨![-w 1, w 0, 0], fun h' => h ⟨by simpa using congrFun h' 1, by simpa using congrFun h' 0⟩, ?_⟩
    simp [Fin.sum_univ_three]; ring

/-- C92: with one pseudo-Hamiltonian atom the tensor is positive definite exactly when `l2(r) r > -1/2`. -/
theorem c92_single (p : Pt) (atoms : Fin 1 → Pt) (l2 : Fin 1 → ℝ) :
    (∀ u : Pt, u ≠ 0 → 0 < massForm p atoms (fun a => l2 a / radius p (atoms a)) u) ↔ -(1 / 2) < l2 0 * radius p (atoms 0) := by
  have hr0 : 0 ≤ radius p (atoms 0) := Real.sqrt_nonneg _
  have hsq : radius p (atoms 0) ^ 2 = ∑ k, (p k - atoms 0 k) ^ 2 := norm3_sq (rel p (atoms 0))
  have hm : l2 0 / radius p (atoms 0) * radius p (atoms 0) ^ 2 = l2 0 * radius p (atoms 0) := by
    rcases eq_or_lt_of_le hr0 with h | h
    · rw [← h]; simp
    · field_simp
  unfold massForm
  simp only [Finset.univ_unique, Fin.default_eq_zero, Finset.sum_singleton]
  constructor
  · intro h
    obtain ⟨u, hu, hp⟩ := perp_exists fun k => p k - atoms 0 k
    have := h u hu
    rw [hp] at this
    have hs := sq_pos_sum hu
    have e : 1 / 2 * ∑ k, u k ^ 2 + l2 0 / radius p (atoms 0) * (radius p (atoms 0) ^ 2 * ∑ k, u k ^ 2 - 0 ^ 2) =
        (1 / 2 + l2 0 * radius p (atoms 0)) * ∑ k, u k ^ 2 := by rw [← hm]; ring
    rw [e] at this
    have := pos_of_mul_pos_left this hs.le
    linarith
  · intro h u hu
    have hs := sq_pos_sum hu
    have cs := cauchy3 (fun k => p k - atoms 0 k) u
    rw [← hsq] at cs
    rcases le_or_gt 0 (l2 0 / radius p (atoms 0)) with hc | hc
    · have := mul_nonneg hc (sub_nonneg.mpr cs)
      linarith
    · have h1 : l2 0 / radius p (atoms 0) * (radius p (atoms 0) ^ 2 * ∑ k, u k ^ 2) ≤
          l2 0 / radius p (atoms 0) * (radius p (atoms 0) ^ 2 * ∑ k, u k ^ 2 - (∑ k, (p k - atoms 0 k) * u k) ^ 2) :=
        mul_le_mul_of_nonpos_left (by linarith [sq_nonneg (∑ k, (p k - atoms 0 k) * u k)]) hc.le
      rw [← mul_assoc, hm] at h1
      have := mul_pos (show 0 < 1 / 2 + l2 0 * radius p (atoms 0) by linarith) hs
      linarith

/-- C92: with several atoms it is enough that the negative parts of `l2(r_a) r_a` sum to less than a half. -/
theorem c92_sufficient (p : Pt) (atoms : Fin A → Pt) (l2 : Fin A → ℝ) (h : ∑ a, max 0 (-(l2 a * radius p (atoms a))) < 1 / 2) (u : Pt) (hu : u ≠ 0) :
    0 < massForm p atoms (fun a => l2 a / radius p (atoms a)) u := by
  have hs := sq_pos_sum hu
  have ht : ∀ a, -(max 0 (-(l2 a * radius p (atoms a)))) * ∑ k, u k ^ 2 ≤
      l2 a / radius p (atoms a) * (radius p (atoms a) ^ 2 * (∑ k, u k ^ 2) - (∑ k, (p k - atoms a k) * u k) ^ 2) := by
    intro a
    have hr0 : 0 ≤ radius p (atoms a) := Real.sqrt_nonneg _
    have hsq : radius p (atoms a) ^ 2 = ∑ k, (p k - atoms a k) ^ 2 := norm3_sq (rel p (atoms a))
    have hm : l2 a / radius p (atoms a) * radius p (atoms a) ^ 2 = l2 a * radius p (atoms a) := by
      rcases eq_or_lt_of_le hr0 with h | h
      · rw [← h]; simp
      · field_simp
    have cs := cauchy3 (fun k => p k - atoms a k) u
    rw [← hsq] at cs
    rcases le_or_gt 0 (l2 a / radius p (atoms a)) with hc | hc
    · have h1 := mul_nonneg hc (sub_nonneg.mpr cs)
      have h2 : 0 ≤ max 0 (-(l2 a * radius p (atoms a))) * ∑ k, u k ^ 2 := mul_nonneg (le_max_left _ _) hs.le
      linarith
    · have h1 : l2 a / radius p (atoms a) * (radius p (atoms a) ^ 2 * ∑ k, u k ^ 2) ≤
          l2 a / radius p (atoms a) * (radius p (atoms a) ^ 2 * ∑ k, u k ^ 2 - (∑ k, (p k - atoms a k) * u k) ^ 2) :=
        mul_le_mul_of_nonpos_left (by linarith [sq_nonneg (∑ k, (p k - atoms a k) * u k)]) hc.le
      rw [← mul_assoc, hm] at h1
      have h2 := mul_le_mul_of_nonneg_right (le_max_right 0 (-(l2 a * radius p (atoms a)))) hs.le
      linarith
  have hsum := Finset.sum_le_sum fun a (_ : a ∈ Finset.univ) => ht a
  rw [← Finset.sum_mul, Finset.sum_neg_distrib] at hsum
  unfold massForm
  have := mul_pos (show 0 < 1 / 2 - ∑ a, max 0 (-(l2 a * radius p (atoms a))) by linarith) hs
  linarith

/-- C92 (forward backend, complex wavefunctions, exact): the `vdot` conjugates, so the result is off by
`Σ M_ij (g_i - conj g_i) g_j` for the gradient `g` of `log psi`.  The class documents that only real wavefunctions are supported. -/
theorem c92_forward_complex_error (f : Conf n → ℂ) (x : Conf n) (hf : ContDiffAt ℝ 2 f x) (atoms : Fin A → Pt) (l2 : Fin n → Fin A → ℝ)
    (L : Fin n → Mat) (hL : factors x atoms l2 = some L) (v : ℂ) (jac : Fin n × Fin 3 → ℂ) (lap : ℂ)
    (hlap : IsLaplacian (0 : Conf n) (fun k : Fin n × Fin 3 => dir k.1 k.2) (fun y => f (shifted x L y)) v jac lap) :
    ∃ E, forwardC f x atoms l2 jac lap = some E ∧
      E * Complex.exp (f x) = derivativePart atoms (fun e a => l2 e a / radius (x e) (atoms a)) (fun y => Complex.exp (f y)) x +
        (∑ e, ∑ i, ∑ j, (mass (x e) atoms (l2 e) i j : ℂ) * ((fderiv ℝ f x (dir e i) - (starRingEnd ℂ) (fderiv ℝ f x (dir e i))) *
          fderiv ℝ f x (dir e j))) * Complex.exp (f x) := by
  have h2' : ContDiffAt ℝ 2 (fun y => Complex.exp (f y)) x := hf.cexp
  obtain ⟨h1, h2⟩ := shifted_lap hf L hlap
  have h3 := shifted_quad (starRingEnd ℂ) (fun r z => by simp) (fun e i => D (dir e i) f x) L jac h1
  refine ⟨_, by unfold forwardC; rw [hL]; rfl, ?_⟩
  have hv := contract_value Complex.exp Complex.hasDerivAt_exp 1 hf h2' (Eventually.of_forall fun y => (one_mul _).symm) atoms l2
  simp only [invR_radius] at hv
  unfold derivativePart
  rw [← hv, ← add_mul, h2, h3]
  congr 1
  unfold contract
  simp only [factors_mul hL, pdC_eq _ (eventually_diff hf).self_of_nhds, Complex.real_smul]
  have e1 : (∑ e, ∑ i, ∑ j, (mass (x e) atoms (l2 e) i j : ℂ) * ((fderiv ℝ f x (dir e i) - (starRingEnd ℂ) (fderiv ℝ f x (dir e i))) *
          fderiv ℝ f x (dir e j))) = (∑ e, ∑ i, ∑ j, (mass (x e) atoms (l2 e) i j : ℂ) * (D (dir e i) f x * D (dir e j) f x)) -
      ∑ e, ∑ i, ∑ j, (mass (x e) atoms (l2 e) i j : ℂ) * ((starRingEnd ℂ) (D (dir e i) f x) * D (dir e j) f x) := by
    simp only [← Finset.sum_sub_distrib]
    refine Finset.sum_congr rfl fun e _ => Finset.sum_congr rfl fun i _ => Finset.sum_congr rfl fun j _ => ?_
    unfold D
    ring
  rw [e1]
  ring

/-- C92: the forward backend is wrong on the plane wave `exp(i y_{00})`, without any pseudo-Hamiltonian atom. -/
theorem c92_forward_complex_limit : ∃ (f : Conf 1 → ℂ) (x : Conf 1) (L : Fin 1 → Mat) (v : ℂ) (jac : Fin 1 × Fin 3 → ℂ) (lap E : ℂ),
    ContDiff ℝ 2 f ∧ factors (A := 0) x Fin.elim0 (fun _ => Fin.elim0) = some L ∧
    IsLaplacian (0 : Conf 1) (fun k : Fin 1 × Fin 3 => dir k.1 k.2) (fun y => f (shifted x L y)) v jac lap ∧
    forwardC (A := 0) f x Fin.elim0 (fun _ => Fin.elim0) jac lap = some E ∧
    E * Complex.exp (f x) ≠ derivativePart (A := 0) Fin.elim0 (fun _ => Fin.elim0) (fun y => Complex.exp (f y)) x := by
  let P : Conf 1 →L[ℝ] ℂ := Complex.I • Complex.ofRealCLM.comp ((ContinuousLinearMap.proj (R := ℝ) (φ := fun _ : Fin 3 => ℝ) 0).comp
    (ContinuousLinearMap.proj (R := ℝ) (φ := fun _ : Fin 1 => Fin 3 → ℝ) 0))
  have hs : (factors (A := 0) (0 : Conf 1) Fin.elim0 (fun _ => Fin.elim0)).isSome := by
    rw [factors_some]
    intro e
    rw [posDef_mass]
    intro u hu
    exact c92_sufficient _ _ _ (by simp) u hu
  obtain ⟨L, hL⟩ := Option.isSome_iff_exists.mp hs
  have hsh : ContDiff ℝ 2 (fun y => P (shifted 0 L y)) := by
    refine P.contDiff.comp ?_
    unfold shifted
    fun_prop
  have hlap := CurveLap.comp (f := fun y => P (shifted 0 L y)) hsh.contDiffAt
    (Laplacian.CurveLap_line (0 : Conf 1) fun k : Fin 1 × Fin 3 => dir k.1 k.2)
  obtain ⟨E, hE, h⟩ := c92_forward_complex_error P 0 P.contDiff.contDiffAt Fin.elim0 (fun _ => Fin.elim0) L hL _ _ _ ⟨rfl, hlap⟩
  refine ⟨P, 0, L, _, _, _, E, P.contDiff, hL, ⟨rfl, hlap⟩, hE, fun hc => ?_⟩
  have hd : (fun (e : Fin 1) (a : Fin 0) => (Fin.elim0 : Fin 0 → ℝ) a / radius ((0 : Conf 1) e) ((Fin.elim0 : Fin 0 → Pt) a)) =
      fun _ => Fin.elim0 := by funext e a; exact a.elim0
  rw [hd] at h
  rw [hc] at h
  have hz := (mul_eq_zero.mp (left_eq_add.mp h)).resolve_right (Complex.exp_ne_zero _)
  have g : ∀ i, fderiv ℝ P 0 (dir 0 i) = if i = 0 then Complex.I else 0 := by
    intro i
    rw [P.fderiv]
    fin_cases i <;> simp [P, dir]
  have hm : ∀ i j, mass (A := 0) ((0 : Conf 1) 0) Fin.elim0 Fin.elim0 i j = if i = j then 1 / 2 else 0 := by
    intro i j
    unfold mass
    rw [Matrix.add_apply, Matrix.smul_apply, correction_eq]
    rcases eq_or_ne i j with rfl | h
    · simp; norm_num
    · simp [h]
  simp only [Finset.univ_unique, Fin.default_eq_zero, Finset.sum_singleton, g, hm, Fin.sum_univ_three] at hz
  simp at hz

/-! ### Concrete cases -/

/-- The linear function `y ↦ y_{00}`. -/
def coord : Conf 1 →L[ℝ] ℝ := (ContinuousLinearMap.proj (R := ℝ) (φ := fun _ : Fin 3 => ℝ) 0).comp
  (ContinuousLinearMap.proj (R := ℝ) (φ := fun _ : Fin 1 => Fin 3 → ℝ) 0)

theorem coord_dir (k : Fin 3) (y : Conf 1) : D (dir 0 k) coord y = if k = 0 then 1 else 0 := by
  unfold D
  rw [coord.fderiv]
  fin_cases k <;> simp [coord, dir]

theorem coord_dir2 (k l : Fin 3) (y : Conf 1) : D (dir 0 l) (D (dir 0 k) coord) y = 0 := by
  rw [show D (dir 0 k) coord = fun _ => (if k = 0 then (1 : ℝ) else 0) from funext fun y => coord_dir k y]
  exact Kinetic.D_const _ _ _

/-- C92: on the p-wave `ψ = y_{00}` about an atom at the origin, where `Δψ = 0` and `L²ψ = 2ψ`, both backends return `2 l2 / r`
as long as `l2 r > -1/2`. -/
example (x : Conf 1) (h0 : x 0 0 ≠ 0) (l : ℝ) (hl : -(1 / 2) < l * radius (x 0) 0) :
    standard (fun y => Real.log |y 0 0|) x (fun _ : Fin 1 => 0) (fun _ _ => l) = some (2 * l / radius (x 0) 0) := by
  have hx : ∀ (e : Fin 1) (a : Fin 1), x e ≠ (fun _ : Fin 1 => (0 : Pt)) a := fun e a h => h0 (by
    rw [Fin.eq_zero e] at h; exact congrFun h 0)
  have hc : ContDiff ℝ 2 (fun y : Conf 1 => y 0 0) := coord.contDiff
  have hf : ContDiffAt ℝ 2 (fun y : Conf 1 => Real.log |y 0 0|) x := by
    simp only [Real.log_abs]
    exact hc.contDiffAt.log h0
  have hlog : LogOf (fun y : Conf 1 => Real.log |y 0 0|) (fun y => y 0 0) x := by
    filter_upwards [hc.continuous.continuousAt.eventually_ne h0] with y hy
    rw [Real.exp_log (abs_pos.mpr hy)]
  have hs := ((c92_nan (fun y : Conf 1 => Real.log |y 0 0|) x (fun _ : Fin 1 => 0) (fun _ _ => l) 0 0).1).mpr
    (fun e => by rw [Fin.eq_zero e]; exact (c92_single (x 0) (fun _ => 0) (fun _ => l)).mpr hl)
  obtain ⟨E, hE⟩ := Option.isSome_iff_exists.mp hs
  have h := c92_standard _ _ x hf hlog hc.continuous.continuousAt _ hx _ E hE
  rw [hE]
  congr 1
  unfold derivativePart at h
  rw [laplacian_eq (hc.contDiffAt)] at h
  simp only [angularSq_eq _ _ hc.contDiffAt] at h
  have hco : (fun y : Conf 1 => y 0 0) = coord := rfl
  rw [hco] at h
  simp only [Finset.univ_unique, Fin.default_eq_zero, Finset.sum_singleton, coord_dir, coord_dir2] at h
  simp only [Fin.sum_univ_three, rel] at h
  simp at h
  have := radius_pos (hx 0 0)
  field_simp
  field_simp at h
  linarith

/-- C92: with `l2 r = -1` the tensor is not positive definite and both backends return NaN. -/
example (f : Conf 1 → ℝ) (jac : Fin 1 × Fin 3 → ℝ) (lap : ℝ) :
    standard f (fun _ => ![1, 0, 0]) (fun _ : Fin 1 => 0) (fun _ _ => -1) = none ∧
    forward f (fun _ => ![1, 0, 0]) (fun _ : Fin 1 => 0) (fun _ _ => -1) jac lap = none := by
  have hr : radius ![1, 0, 0] 0 = 1 := by simp [radius, Fin.sum_univ_three]
  have hn : ¬ ∀ (e : Fin 1) (u : Pt), u ≠ 0 → 0 < massForm ((fun _ : Fin 1 => (![1, 0, 0] : Pt)) e) (fun _ : Fin 1 => 0)
      (fun a => (fun (_ _ : Fin 1) => (-1 : ℝ)) e a / radius ((fun _ : Fin 1 => (![1, 0, 0] : Pt)) e) ((fun _ : Fin 1 => (0 : Pt)) a)) u := by
    intro h
    have := (c92_single ![1, 0, 0] (fun _ => 0) (fun _ => -1)).mp (h 0)
    rw [hr] at this
    norm_num at this
  obtain ⟨h1, h2⟩ := c92_nan f (fun _ => ![1, 0, 0]) (fun _ : Fin 1 => 0) (fun _ _ => -1) jac lap
  exact ⟨Option.not_isSome_iff_eq_none.mp fun h => hn (h1.mp h), Option.not_isSome_iff_eq_none.mp fun h => hn (h2.mp h)⟩

/-- C92: what the forward backend needs can be met. -/
example (f : Conf n → ℝ) (x : Conf n) (hf : ContDiff ℝ 2 f) (atoms : Fin A → Pt) :
    ∃ L v jac lap, factors x atoms (fun _ _ => 0) = some L ∧
      IsLaplacian (0 : Conf n) (fun k : Fin n × Fin 3 => dir k.1 k.2) (fun y => f (shifted x L y)) v jac lap := by
  have hs : (factors x atoms (fun _ _ => 0)).isSome := by
    rw [factors_some]
    intro e
    rw [posDef_mass]
    intro u hu
    exact c92_sufficient _ _ _ (by simp) u hu
  obtain ⟨L, hL⟩ := Option.isSome_iff_exists.mp hs
  have hsh : ContDiff ℝ 2 (fun y => f (shifted x L y)) := by
    refine hf.comp ?_
    unfold shifted
    fun_prop
  have := CurveLap.comp (f := fun y => f (shifted x L y)) hsh.contDiffAt (Laplacian.CurveLap_line (0 : Conf n) fun k : Fin n × Fin 3 => dir k.1 k.2)
  exact ⟨L, _, _, _, hL, rfl, this⟩

end Jaqmc.Ph.Props
