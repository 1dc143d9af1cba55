import Verif.Lemmas.LowestLevel
import Verif.Props.Hall
import Mathlib.Analysis.Real.Pi.Bounds
/-! C69, C70: the lowest Landau level and the Laughlin state. -/
namespace Jaqmc.Kinetic.Props
open Filter Topology Spec Laplacian.Spec Hall Hall.Props Wf Wf.Props Wf.Spec
open scoped BigOperators ContDiff

variable {n : ℕ}

/-- The kinetic energy of a state that is a homogeneous polynomial of degree `2Q = N` in `(u_i, v_i)` for each electron. -/
theorem energy_homog (N : ℕ) (r : ℝ) (f F : Conf n → ℂ) (x : Conf n) (hf : ContDiffAt ℝ 2 f x) (hs : ∀ i, Real.sin (x i).1 ≠ 0)
    (hF : ∀ᶠ y in 𝓝 x, Complex.exp (f y) = F y) (H : ∀ i, Nonempty (Homog N fun e => F (Function.update x i e))) :
    sphereHessian ((N : ℝ) / 2) r f x = 1 / (2 * (r : ℂ) ^ 2) * (n * ((N : ℂ) / 2)) := by
  have h1 := c69_hessian ((N : ℝ) / 2) r f x hf hs
  have h2 : ∀ i, lambdaSq ((N : ℝ) / 2) i (fun y => Complex.exp (f y)) x = ((N : ℝ) / 2 : ℝ) * Complex.exp (f x) := by
    intro i
    obtain ⟨Hi⟩ := H i
    rw [lambdaSq_congr _ i hF, lambdaSq_poly F x i (hs i) Hi, hF.self_of_nhds]
  simp only [h2] at h1
  rw [Finset.sum_const, Finset.card_univ, Fintype.card_fin, nsmul_eq_mul] at h1
  have hne : Complex.exp (f x) ≠ 0 := Complex.exp_ne_zero _
  apply mul_right_cancel₀ hne
  rw [h1]
  push_cast
  ring

/-- C69, the lowest Landau level: if near the configuration `ψ` is, in the coordinates of each electron `i`, a combination of the
basis functions `u^t v^(2Q - t)` (with coefficients that may depend on the other electrons), then the local kinetic energy is
`N Q / (2 R²)` at every point: with `R = sqrt(Q)`, one half per electron. -/
theorem c69_lowest_level (N : ℕ) (r : ℝ) (f F : Conf n → ℂ) (x : Conf n) (hf : ContDiffAt ℝ 2 f x) (hs : ∀ i, Real.sin (x i).1 ≠ 0)
    (hF : ∀ᶠ y in 𝓝 x, Complex.exp (f y) = F y)
    (hL : ∀ i, ∃ c : ℕ → ℂ, ∀ e, F (Function.update x i e) = ∑ t ∈ Finset.range (N + 1), c t * (uOf e ^ t * vOf e ^ (N - t))) :
    sphereHessian ((N : ℝ) / 2) r f x = 1 / (2 * (r : ℂ) ^ 2) * (n * ((N : ℂ) / 2)) :=
  energy_homog N r f F x hf hs hF fun i => by
    obtain ⟨c, hc⟩ := hL i
    exact ⟨Homog.ofRange N c hc⟩

/-! ### Angular momentum -/

/-- `F` is annihilated by the total angular momentum, electron `a` carrying the monopole strength `μ a`. -/
def Kills (μ : Fin n → ℝ) (F : Conf n → ℂ) (y : Conf n) : Prop :=
  DifferentiableAt ℝ F y ∧ ∀ k, dT F k y + (∑ a, (μ a : ℂ) * (magHat (y a) k : ℂ)) * F y = 0

theorem Kills.const (z : ℂ) (y : Conf n) : Kills 0 (fun _ => z) y :=
  ⟨differentiableAt_const z, fun k => by simp [dT, D_const]⟩

theorem Kills.mul {μ ν : Fin n → ℝ} {F G : Conf n → ℂ} {y : Conf n} (hF : Kills μ F y) (hG : Kills ν G y) :
    Kills (μ + ν) (fun z => F z * G z) y := by
  refine ⟨hF.1.fun_mul hG.1, fun k => ?_⟩
  have e : dT (fun z => F z * G z) k y = dT F k y * G y + F y * dT G k y := by
    unfold dT
    rw [Finset.sum_mul, Finset.mul_sum, ← Finset.sum_add_distrib]
    refine Finset.sum_congr rfl fun i _ => ?_
    rw [D_mul _ hF.1 hG.1, D_mul _ hF.1 hG.1]
    ring
  rw [e]
  have : ∑ a, (((μ + ν) a : ℝ) : ℂ) * (magHat (y a) k : ℂ) = (∑ a, (μ a : ℂ) * (magHat (y a) k : ℂ)) + ∑ a, (ν a : ℂ) * (magHat (y a) k : ℂ) := by
    rw [← Finset.sum_add_distrib]
    exact Finset.sum_congr rfl fun a _ => by simp only [Pi.add_apply]; push_cast; ring
  rw [this]
  linear_combination G y * hF.2 k + F y * hG.2 k

theorem Kills.prod {κ : Type} (T : Finset κ) (μ : κ → Fin n → ℝ) (F : κ → Conf n → ℂ) (y : Conf n) (h : ∀ s ∈ T, Kills (μ s) (F s) y) :
    Kills (∑ s ∈ T, μ s) (fun z => ∏ s ∈ T, F s z) y := by
  classical
  induction T using Finset.induction_on with
  | empty => simpa using Kills.const 1 y
  | insert s T hs ih =>
    have := (h s (Finset.mem_insert_self _ _)).mul (ih fun t ht => h t (Finset.mem_insert_of_mem ht))
    simpa only [Finset.prod_insert hs, Finset.sum_insert hs] using this

/-- A function of theta times a function of phi, complex. -/
theorem Partials.prodC {u v : ℝ → ℂ} {e : Angles} {u' v' : ℂ} (hu : HasDerivAt u u' e.1) (hv : HasDerivAt v v' e.2) :
    Partials (fun e => u e.1 * v e.2) e (u' * v e.2) (u e.1 * v') := by
  have h1 : HasFDerivAt (fun e : Angles => u e.1) _ e := hu.hasFDerivAt.comp e hasFDerivAt_fst
  have h2 : HasFDerivAt (fun e : Angles => v e.2) _ e := hv.hasFDerivAt.comp e hasFDerivAt_snd
  have h3 := h1.mul h2
  refine ⟨h3.differentiableAt, ?_, ?_⟩
  · refine (congrArg (fun A => A ((1 : ℝ), (0 : ℝ))) h3.fderiv).trans ?_
    simp [mul_comm]
  · refine (congrArg (fun A => A ((0 : ℝ), (1 : ℝ))) h3.fderiv).trans ?_
    simp

theorem hasDerivAt_cosHalf (θ : ℝ) : HasDerivAt (fun t : ℝ => (Real.cos (t / 2) : ℂ)) (-(1 / 2) * (Real.sin (θ / 2) : ℂ)) θ := by
  have h1 : HasDerivAt (fun t : ℝ => Real.cos (t / 2)) (-Real.sin (θ / 2) * (1 / 2)) θ :=
    HasDerivAt.comp (h₂ := Real.cos) θ (Real.hasDerivAt_cos (θ / 2)) ((hasDerivAt_id' θ).div_const 2)
  refine h1.ofReal_comp.congr_deriv ?_
  push_cast; ring

theorem hasDerivAt_sinHalf (θ : ℝ) : HasDerivAt (fun t : ℝ => (Real.sin (t / 2) : ℂ)) ((1 / 2) * (Real.cos (θ / 2) : ℂ)) θ := by
  have h1 : HasDerivAt (fun t : ℝ => Real.sin (t / 2)) (Real.cos (θ / 2) * (1 / 2)) θ :=
    HasDerivAt.comp (h₂ := Real.sin) θ (Real.hasDerivAt_sin (θ / 2)) ((hasDerivAt_id' θ).div_const 2)
  refine h1.ofReal_comp.congr_deriv ?_
  push_cast; ring

theorem partials_u (e : Angles) : Partials uOf e (-(1 / 2) * (Real.sin (e.1 / 2) : ℂ) * Complex.exp (0.5 * Complex.I * e.2))
    ((Real.cos (e.1 / 2) : ℂ) * (0.5 * Complex.I * Complex.exp (0.5 * Complex.I * e.2))) :=
  Partials.prodC (u := fun t => (Real.cos (t / 2) : ℂ)) (v := fun t => Complex.exp (0.5 * Complex.I * t)) (hasDerivAt_cosHalf e.1) (hasDerivAt_expI _ e.2)

theorem partials_v (e : Angles) : Partials vOf e ((1 / 2) * (Real.cos (e.1 / 2) : ℂ) * Complex.exp (-0.5 * Complex.I * e.2))
    ((Real.sin (e.1 / 2) : ℂ) * (-0.5 * Complex.I * Complex.exp (-0.5 * Complex.I * e.2))) :=
  Partials.prodC (u := fun t => (Real.sin (t / 2) : ℂ)) (v := fun t => Complex.exp (-0.5 * Complex.I * t)) (hasDerivAt_sinHalf e.1) (hasDerivAt_expI _ e.2)

/-- The angular momentum of one electron in the doublet `(u, v)` (monopole strength 1/2): a traceless matrix. -/
theorem doublet (k : Fin 3) : ∃ α β γ : ℂ, ∀ e : Angles, Real.sin e.1 ≠ 0 → ∀ a b a' b', Partials uOf e a b → Partials vOf e a' b' →
    -Complex.I * ((phiHat e k : ℂ) * a - (thetaHat e k : ℂ) * b) + 1 / 2 * (magHat e k : ℂ) * uOf e = α * uOf e + β * vOf e ∧
    -Complex.I * ((phiHat e k : ℂ) * a' - (thetaHat e k : ℂ) * b') + 1 / 2 * (magHat e k : ℂ) * vOf e = γ * uOf e - α * vOf e := by
  refine ⟨![0, 0, 1 / 2] k, ![1 / 2, Complex.I / 2, 0] k, ![1 / 2, -Complex.I / 2, 0] k, ?_⟩
  intro e h a b a' b' hu hv
  obtain rfl : -(1 / 2) * (Real.sin (e.1 / 2) : ℂ) * Complex.exp (0.5 * Complex.I * e.2) = a := (partials_u e).theta.symm.trans hu.theta
  obtain rfl : (Real.cos (e.1 / 2) : ℂ) * (0.5 * Complex.I * Complex.exp (0.5 * Complex.I * e.2)) = b := (partials_u e).phi.symm.trans hu.phi
  obtain rfl : (1 / 2) * (Real.cos (e.1 / 2) : ℂ) * Complex.exp (-0.5 * Complex.I * e.2) = a' := (partials_v e).theta.symm.trans hv.theta
  obtain rfl : (Real.sin (e.1 / 2) : ℂ) * (-0.5 * Complex.I * Complex.exp (-0.5 * Complex.I * e.2)) = b' := (partials_v e).phi.symm.trans hv.phi
  rw [thetaHat_eq, magHat_eq _ h]
  have hS : (Real.sin e.1 : ℂ) = 2 * (Real.sin (e.1 / 2) : ℂ) * (Real.cos (e.1 / 2) : ℂ) := by exact_mod_cast sin_half e.1
  have hC : (Real.cos e.1 : ℂ) = (Real.cos (e.1 / 2) : ℂ) ^ 2 - (Real.sin (e.1 / 2) : ℂ) ^ 2 := by exact_mod_cast cos_half e.1
  have h1 : (Real.sin (e.1 / 2) : ℂ) ^ 2 + (Real.cos (e.1 / 2) : ℂ) ^ 2 = 1 := by exact_mod_cast Real.sin_sq_add_cos_sq (e.1 / 2)
  have hs' : (Real.sin e.1 : ℂ) ≠ 0 := by exact_mod_cast h
  have hs2 : (Real.sin (e.1 / 2) : ℂ) ≠ 0 := fun h0 => hs' (by rw [hS, h0]; ring)
  have hc2 : (Real.cos (e.1 / 2) : ℂ) ≠ 0 := fun h0 => hs' (by rw [hS, h0]; ring)
  -- the phase
  have hP : (Real.cos e.2 : ℂ) = (Complex.exp (0.5 * Complex.I * e.2) ^ 2 + Complex.exp (-0.5 * Complex.I * e.2) ^ 2) / 2 := by
    rw [← Complex.exp_nat_mul, ← Complex.exp_nat_mul, Complex.ofReal_cos, Complex.cos]
    congr 3 <;> (push_cast; ring)
  have hN : (Real.sin e.2 : ℂ) = (Complex.exp (-0.5 * Complex.I * e.2) ^ 2 - Complex.exp (0.5 * Complex.I * e.2) ^ 2) * Complex.I / 2 := by
    rw [← Complex.exp_nat_mul, ← Complex.exp_nat_mul, Complex.ofReal_sin, Complex.sin]
    congr 4 <;> (push_cast; ring)
  have hpq : Complex.exp (0.5 * Complex.I * e.2) * Complex.exp (-0.5 * Complex.I * e.2) = 1 := by
    rw [← Complex.exp_add, show (0.5 : ℂ) * Complex.I * e.2 + -0.5 * Complex.I * e.2 = 0 by ring, Complex.exp_zero]
  unfold uOf vOf
  generalize Complex.exp (0.5 * Complex.I * e.2) = p at *
  generalize Complex.exp (-0.5 * Complex.I * e.2) = q at *
  generalize (Real.sin (e.1 / 2) : ℂ) = s at *
  generalize (Real.cos (e.1 / 2) : ℂ) = c at *
  have hI := Complex.I_sq
  generalize Complex.I = J at *
  fin_cases k
  · simp only [Fin.zero_eta, Matrix.cons_val_zero, phiHat, Complex.ofReal_neg, Complex.ofReal_mul, Complex.ofReal_div, Complex.ofReal_one]
    rw [hS, hC, hP, hN]
    norm_num
    constructor <;> field_simp <;> grind
  · simp only [Fin.mk_one, Matrix.cons_val_one, Matrix.cons_val_zero, phiHat, Complex.ofReal_neg, Complex.ofReal_mul, Complex.ofReal_div, Complex.ofReal_one]
    rw [hS, hC, hP, hN]
    norm_num
    constructor <;> field_simp <;> grind
  · simp [phiHat]
    norm_num
    constructor
    · linear_combination (-(c * p) / 2) * hI
    · linear_combination (s * q / 2) * hI

/-- The pair factor of electrons `i` and `j`. -/
noncomputable def pair (i j : Fin n) (y : Conf n) : ℂ := uOf (y j) * vOf (y i) - uOf (y i) * vOf (y j)

theorem dT_coord {h : Angles → ℂ} {y : Conf n} {j : Fin n} {a b : ℂ} (H : Partials h (y j) a b) (k : Fin 3) :
    dT (fun z : Conf n => h (z j)) k y = -Complex.I * ((phiHat (y j) k : ℂ) * a - (thetaHat (y j) k : ℂ) * b) := by
  unfold dT
  have : ∀ i, -Complex.I * ((phiHat (y i) k : ℂ) * D (eTheta i) (fun z : Conf n => h (z j)) y - (thetaHat (y i) k : ℂ) * D (ePhi i) (fun z : Conf n => h (z j)) y)
      = if i = j then -Complex.I * ((phiHat (y i) k : ℂ) * a - (thetaHat (y i) k : ℂ) * b) else 0 := by
    intro i
    rw [H.D_theta, H.D_phi]
    split_ifs <;> ring
  simp only [this, Finset.sum_ite_eq', Finset.mem_univ, if_true]

theorem dT_mul {F G : Conf n → ℂ} {y : Conf n} (hF : DifferentiableAt ℝ F y) (hG : DifferentiableAt ℝ G y) (k : Fin 3) :
    dT (fun z => F z * G z) k y = dT F k y * G y + F y * dT G k y := by
  unfold dT
  rw [Finset.sum_mul, Finset.mul_sum, ← Finset.sum_add_distrib]
  refine Finset.sum_congr rfl fun i _ => ?_
  rw [D_mul _ hF hG, D_mul _ hF hG]
  ring

theorem dT_sub {F G : Conf n → ℂ} {y : Conf n} (hF : DifferentiableAt ℝ F y) (hG : DifferentiableAt ℝ G y) (k : Fin 3) :
    dT (fun z => F z - G z) k y = dT F k y - dT G k y := by
  unfold dT
  rw [← Finset.sum_sub_distrib]
  refine Finset.sum_congr rfl fun i _ => ?_
  rw [D_sub _ hF hG, D_sub _ hF hG]
  ring

theorem pair_kills (i j : Fin n) (y : Conf n) (hs : ∀ a, Real.sin (y a).1 ≠ 0) :
    Kills (Pi.single i (1 / 2) + Pi.single j (1 / 2)) (pair i j) y := by
  have hui := partials_u (y i)
  have hvi := partials_v (y i)
  have huj := partials_u (y j)
  have hvj := partials_v (y j)
  have d1 := diff_coord j huj.diff
  have d2 := diff_coord i hvi.diff
  have d3 := diff_coord i hui.diff
  have d4 := diff_coord j hvj.diff
  refine ⟨(d1.fun_mul d2).fun_sub (d3.fun_mul d4), fun k => ?_⟩
  obtain ⟨α, β, γ, hd⟩ := doublet k
  obtain ⟨ei, fi⟩ := hd (y i) (hs i) _ _ _ _ hui hvi
  obtain ⟨ej, fj⟩ := hd (y j) (hs j) _ _ _ _ huj hvj
  have hmag : ∑ a, (((Pi.single i (1 / 2) + Pi.single j (1 / 2) : Fin n → ℝ) a : ℝ) : ℂ) * (magHat (y a) k : ℂ)
      = 1 / 2 * (magHat (y i) k : ℂ) + 1 / 2 * (magHat (y j) k : ℂ) := by
    have : ∀ a, (((Pi.single i (1 / 2) + Pi.single j (1 / 2) : Fin n → ℝ) a : ℝ) : ℂ) * (magHat (y a) k : ℂ)
        = (if a = i then 1 / 2 * (magHat (y a) k : ℂ) else 0) + if a = j then 1 / 2 * (magHat (y a) k : ℂ) else 0 := by
      intro a
      simp only [Pi.add_apply, Pi.single_apply]
      split_ifs <;> (push_cast; ring)
    simp only [this, Finset.sum_add_distrib, Finset.sum_ite_eq', Finset.mem_univ, if_true]
  have e1 : dT (pair i j) k y = dT (fun z : Conf n => uOf (z j)) k y * vOf (y i) + uOf (y j) * dT (fun z : Conf n => vOf (z i)) k y
      - (dT (fun z : Conf n => uOf (z i)) k y * vOf (y j) + uOf (y i) * dT (fun z : Conf n => vOf (z j)) k y) := by
    unfold pair
    rw [dT_sub (d1.fun_mul d2) (d3.fun_mul d4), dT_mul d1 d2, dT_mul d3 d4]
  rw [← dT_coord hui k] at ei
  rw [← dT_coord hvi k] at fi
  rw [← dT_coord huj k] at ej
  rw [← dT_coord hvj k] at fj
  rw [hmag, e1]
  unfold pair
  linear_combination vOf (y i) * ej - uOf (y i) * fj + uOf (y j) * fi - vOf (y j) * ei

/-- The pairs of electrons. -/
def pairs (n : ℕ) : Finset (Fin n × Fin n) := Finset.univ.filter fun p => p.1 < p.2

theorem pairs_prod (g : Fin n → Fin n → ℂ) : ∏ p ∈ pairs n, g p.1 p.2 = ∏ i : Fin n, ∏ j ∈ Finset.Ioi i, g i j := by
  unfold pairs
  rw [Finset.prod_filter, ← Finset.univ_product_univ, Finset.prod_product]
  refine Finset.prod_congr rfl fun i _ => ?_
  rw [← Finset.prod_filter]
  refine Finset.prod_congr ?_ fun _ _ => rfl
  ext j; simp

/-- Every electron is in `n - 1` pairs. -/
theorem pairs_count (w : ℝ) (a : Fin n) : ∑ p ∈ pairs n, ((Pi.single p.1 w + Pi.single p.2 w : Fin n → ℝ) a) = ((n - 1 : ℕ) : ℝ) * w := by
  have hcard : (Finset.univ.filter fun j : Fin n => j ≠ a).card = n - 1 := by
    rw [Finset.filter_ne', Finset.card_erase_of_mem (Finset.mem_univ a), Finset.card_univ, Fintype.card_fin]
  have e1 : ∑ p ∈ pairs n, (Pi.single p.1 w : Fin n → ℝ) a = ∑ j, if a < j then w else 0 := by
    unfold pairs
    rw [Finset.sum_filter, ← Finset.univ_product_univ, Finset.sum_product, Finset.sum_eq_single a]
    · exact Finset.sum_congr rfl fun j _ => by simp
    · intro i _ hi
      refine Finset.sum_eq_zero fun j _ => ?_
      simp [Pi.single_apply, hi.symm]
    · simp
  have e2 : ∑ p ∈ pairs n, (Pi.single p.2 w : Fin n → ℝ) a = ∑ j, if j < a then w else 0 := by
    unfold pairs
    rw [Finset.sum_filter, ← Finset.univ_product_univ, Finset.sum_product_right, Finset.sum_eq_single a]
    · exact Finset.sum_congr rfl fun j _ => by simp
    · intro i _ hi
      refine Finset.sum_eq_zero fun j _ => ?_
      simp [Pi.single_apply, hi.symm]
    · simp
  simp only [Pi.add_apply, Finset.sum_add_distrib]
  rw [e1, e2, ← Finset.sum_add_distrib]
  have : ∀ j, ((if a < j then w else 0) + if j < a then w else 0) = if j ≠ a then w else 0 := by
    intro j
    rcases lt_trichotomy a j with h | h | h
    · simp [h, h.not_gt, h.ne']
    · simp [h]
    · simp [h, h.not_gt, h.ne]
  simp only [this]
  rw [← Finset.sum_filter, Finset.sum_const, hcard, nsmul_eq_mul]

/-- The Laughlin state, as a function of the positions. -/
noncomputable def cube (y : Conf n) : ℂ := ∏ p ∈ pairs n, (pair p.1 p.2 y * pair p.1 p.2 y * pair p.1 p.2 y)

theorem cube_eq (y : Conf n) : cube y = (∏ i : Fin n, ∏ j ∈ Finset.Ioi i, (uOf (y j) * vOf (y i) - uOf (y i) * vOf (y j))) ^ 3 := by
  unfold cube
  rw [pairs_prod fun i j => pair i j y * pair i j y * pair i j y]
  simp only [← Finset.prod_pow]
  exact Finset.prod_congr rfl fun i _ => Finset.prod_congr rfl fun j _ => by unfold pair; ring

theorem cube_kills (y : Conf n) (hs : ∀ a, Real.sin (y a).1 ≠ 0) : Kills (fun _ => ((3 * (n - 1) : ℕ) : ℝ) / 2) (cube (n := n)) y := by
  have h := Kills.prod (pairs n) _ _ y fun p _ => ((pair_kills p.1 p.2 y hs).mul (pair_kills p.1 p.2 y hs)).mul (pair_kills p.1 p.2 y hs)
  have e : (∑ p ∈ pairs n, ((Pi.single p.1 (1 / 2) + Pi.single p.2 (1 / 2) : Fin n → ℝ) + (Pi.single p.1 (1 / 2) + Pi.single p.2 (1 / 2))
      + (Pi.single p.1 (1 / 2) + Pi.single p.2 (1 / 2)))) = fun _ => ((3 * (n - 1) : ℕ) : ℝ) / 2 := by
    funext a
    have := pairs_count (n := n) (1 / 2) a
    simp only [Finset.sum_apply, Pi.add_apply, Finset.sum_add_distrib] at this ⊢
    push_cast
    linarith
  rw [e] at h
  exact h

theorem cube_angular (y : Conf n) (hs : ∀ a, Real.sin (y a).1 ≠ 0) (k : Fin 3) : angular (((3 * (n - 1) : ℕ) : ℝ) / 2) k (cube (n := n)) y = 0 := by
  obtain ⟨h1, h2⟩ := cube_kills y hs
  rw [angular_eq _ k h1 hs, ← h2 k]
  unfold magTerm
  rw [Finset.mul_sum]

theorem cube_homog (x : Conf n) (i : Fin n) : Nonempty (Homog (3 * (n - 1)) fun e => cube (Function.update x i e)) := by
  have h := Homog.prod (pairs n) (fun p => if p.1 = i ∨ p.2 = i then 3 else 0)
    (fun p e => pair p.1 p.2 (Function.update x i e) * pair p.1 p.2 (Function.update x i e) * pair p.1 p.2 (Function.update x i e)) ?_
  · obtain ⟨H⟩ := h
    refine ⟨H.congr (fun e => rfl) ?_⟩
    have := pairs_count (n := n) 3 i
    have e2 : ∀ p ∈ pairs n, ((Pi.single p.1 3 + Pi.single p.2 3 : Fin n → ℝ) i) = ((if p.1 = i ∨ p.2 = i then 3 else 0 : ℕ) : ℝ) := by
      intro p hp
      have hlt : p.1 < p.2 := by simpa [pairs] using hp
      simp only [Pi.add_apply, Pi.single_apply]
      by_cases h1 : i = p.1
      · have : ¬ i = p.2 := by rw [h1]; exact hlt.ne
        simp [h1, hlt.ne]
      · by_cases h2 : i = p.2
        · simp [h2, hlt.ne']
        · have h1' : ¬ p.1 = i := fun h => h1 h.symm
          have h2' : ¬ p.2 = i := fun h => h2 h.symm
          simp [h1, h2, h1', h2']
    rw [Finset.sum_congr rfl e2] at this
    have h3 : ((∑ p ∈ pairs n, if p.1 = i ∨ p.2 = i then 3 else 0 : ℕ) : ℝ) = ((3 * (n - 1) : ℕ) : ℝ) := by
      push_cast at this ⊢
      rw [this]; ring
    exact_mod_cast h3
  · intro p hp
    have hlt : p.1 < p.2 := by simpa [pairs] using hp
    have key : Nonempty (Homog (if p.1 = i ∨ p.2 = i then 1 else 0) fun e => pair p.1 p.2 (Function.update x i e)) := by
      unfold pair
      by_cases h1 : p.1 = i
      · have h2 : p.2 ≠ i := h1 ▸ hlt.ne'
        rw [if_pos (Or.inl h1)]
        refine ⟨(Homog.linear (-vOf (x p.2)) (uOf (x p.2))).congr (fun e => ?_) rfl⟩
        rw [h1, Function.update_self, Function.update_of_ne h2]
        ring
      · by_cases h2 : p.2 = i
        · rw [if_pos (Or.inr h2)]
          refine ⟨(Homog.linear (vOf (x p.1)) (-uOf (x p.1))).congr (fun e => ?_) rfl⟩
          rw [h2, Function.update_self, Function.update_of_ne h1]
          ring
        · rw [if_neg (by tauto)]
          refine ⟨(Homog.const (uOf (x p.2) * vOf (x p.1) - uOf (x p.1) * vOf (x p.2))).congr (fun e => ?_) rfl⟩
          rw [Function.update_of_ne h1, Function.update_of_ne h2]
    obtain ⟨K⟩ := key
    refine ⟨((K.mul K).mul K).congr (fun e => rfl) ?_⟩
    split_ifs <;> rfl

/-- The value of the Laughlin wavefunction at electrons that are apart. -/
theorem laughlin_value (flux : ℕ) (y : Conf n) (h : (laughlin flux 1 y).isSome) (ha : Apart y) :
    ((laughlin flux 1 y).map valueC).join = some ((∏ i : Fin n, ∏ _j ∈ Finset.Ioi i, (-1 : ℂ)) * cube y) := by
  have hd : (laughlinOrbitals (fun i => uOf (y i)) (fun i => vOf (y i))).det ≠ 0 := by
    rw [c67_laughlin_state]
    refine mul_ne_zero (Finset.prod_ne_zero_iff.2 fun i _ => Finset.prod_ne_zero_iff.2 fun j _ => by norm_num) (pow_ne_zero _ ?_)
    exact Finset.prod_ne_zero_iff.2 fun i _ => Finset.prod_ne_zero_iff.2 fun j hj => ha i j (Finset.mem_Ioi.1 hj).ne
  unfold laughlin at h ⊢
  split_ifs at h ⊢ with hc
  · have := (c63_valueC_partial (fun _ : Fin 1 => laughlinOrbitals (fun i => uOf (y i)) (fun i => vOf (y i)))) ⟨0, hd⟩
    rw [Finset.univ_unique, Finset.sum_singleton, c67_laughlin_state] at this
    rw [cube_eq]
    simpa using this
  · simp at h

theorem contDiff_coord {h : Angles → ℂ} (hd : ContDiff ℝ 2 h) (j : Fin n) : ContDiff ℝ 2 fun y : Conf n => h (y j) :=
  hd.comp (contDiff_apply ℝ Angles j)

theorem contDiff_u : ContDiff ℝ 2 uOf := by
  have h1 : ContDiff ℝ 2 fun e : Angles => (Real.cos (e.1 / 2) : ℂ) :=
    Complex.ofRealCLM.contDiff.comp (Real.contDiff_cos.comp (contDiff_fst.div_const 2))
  have h2 : ContDiff ℝ 2 fun e : Angles => Complex.exp (0.5 * Complex.I * e.2) :=
    (contDiff_const.mul (Complex.ofRealCLM.contDiff.comp contDiff_snd)).cexp
  exact h1.mul h2

theorem contDiff_v : ContDiff ℝ 2 vOf := by
  have h1 : ContDiff ℝ 2 fun e : Angles => (Real.sin (e.1 / 2) : ℂ) :=
    Complex.ofRealCLM.contDiff.comp (Real.contDiff_sin.comp (contDiff_fst.div_const 2))
  have h2 : ContDiff ℝ 2 fun e : Angles => Complex.exp (-0.5 * Complex.I * e.2) :=
    (contDiff_const.mul (Complex.ofRealCLM.contDiff.comp contDiff_snd)).cexp
  exact h1.mul h2

theorem contDiff_cube : ContDiff ℝ 2 (cube (n := n)) := by
  unfold cube
  refine contDiff_prod fun p _ => ?_
  have : ContDiff ℝ 2 (pair (n := n) p.1 p.2) :=
    ((contDiff_coord contDiff_u p.2).mul (contDiff_coord contDiff_v p.1)).sub ((contDiff_coord contDiff_u p.1).mul (contDiff_coord contDiff_v p.2))
  exact (this.mul this).mul this

theorem apart_eventually {x : Conf n} (ha : Apart x) : ∀ᶠ y in 𝓝 x, Apart y := by
  unfold Apart
  rw [Filter.eventually_all]
  intro i
  rw [Filter.eventually_all]
  intro j
  by_cases hij : i = j
  · exact Eventually.of_forall fun y h => absurd hij h
  · have hc : ContinuousAt (fun y : Conf n => uOf (y j) * vOf (y i) - uOf (y i) * vOf (y j)) x :=
      (((contDiff_coord contDiff_u j).mul (contDiff_coord contDiff_v i)).sub ((contDiff_coord contDiff_u i).mul (contDiff_coord contDiff_v j))).continuous.continuousAt
    exact (hc.eventually_ne (ha i j hij)).mono fun y hy _ => hy

section
variable (hn : 0 < n) (flux : ℕ) (f : Conf n → ℂ) (x : Conf n) (hf : ContDiffAt ℝ 2 f x) (hs : ∀ i, Real.sin (x i).1 ≠ 0) (ha : Apart x)
  (hacc : (laughlin flux 1 x).isSome) (hv : ∀ᶠ y in 𝓝 x, ((laughlin flux 1 y).map valueC).join = some (Complex.exp (f y)))
include hn hf hs ha hacc hv

omit hf hs in
theorem laughlin_local : flux = 3 * (n - 1) ∧ ∀ᶠ y in 𝓝 x, Complex.exp (f y) = (∏ i : Fin n, ∏ _j ∈ Finset.Ioi i, (-1 : ℂ)) * cube y := by
  have hflux := (c67_laughlin_accepts hn flux 1 x).1 hacc
  refine ⟨by simpa using hflux, ?_⟩
  filter_upwards [hv, apart_eventually ha] with y hy hay
  rw [laughlin_value flux y ((c67_laughlin_accepts hn flux 1 y).2 hflux) hay] at hy
  exact (Option.some.inj hy).symm

/-- C69, end to end: the Laughlin wavefunction at its flux `2Q = 3 (N - 1)` has the kinetic energy `N Q / (2 R²)` of the lowest Landau
level at every configuration of distinct electrons away from the poles.  `f` is any twice continuously differentiable branch of the
logarithm of the wavefunction around the configuration. -/
theorem c69_laughlin (r : ℝ) : sphereHessian ((flux : ℝ) / 2) r f x = 1 / (2 * (r : ℂ) ^ 2) * (n * ((flux : ℂ) / 2)) := by
  obtain ⟨rfl, hl⟩ := laughlin_local hn flux f x ha hacc hv
  refine energy_homog _ r f _ x hf hs hl fun i => ?_
  obtain ⟨H⟩ := cube_homog x i
  exact ⟨((Homog.const _).mul H).congr (fun e => rfl) (Nat.zero_add _)⟩

/-- C70, end to end: the Laughlin wavefunction has total angular momentum 0: all the statistics vanish at every such configuration,
in both modes. -/
theorem c70_laughlin : angularHessian ((flux : ℝ) / 2) f x = ⟨0, 0, 0⟩ ∧ angularForward ((flux : ℝ) / 2) f x = ⟨0, 0, 0⟩ := by
  obtain ⟨rfl, hl⟩ := laughlin_local hn flux f x ha hacc hv
  rw [angularHessian_eq _ hf hs, and_self]
  have h0 : ∀ k, angular (((3 * (n - 1) : ℕ) : ℝ) / 2) k (fun y => Complex.exp (f y)) =ᶠ[𝓝 x] fun _ => 0 := by
    intro k
    filter_upwards [hl.eventually_nhds, sin_eventually hs] with y hy hsy
    rw [angular_congr _ k (show (fun y => Complex.exp (f y)) =ᶠ[𝓝 y] _ from hy)]
    obtain ⟨h1, h2⟩ := (Kills.const (∏ i : Fin n, ∏ _j ∈ Finset.Ioi i, (-1 : ℂ)) y).mul (cube_kills y hsy)
    rw [angular_eq _ k h1 hsy, ← h2 k]
    unfold magTerm
    rw [Finset.mul_sum]
    simp
  have hz : ∀ k, angular (((3 * (n - 1) : ℕ) : ℝ) / 2) k (fun _ : Conf n => (0 : ℂ)) x = 0 := by
    intro k
    rw [angular_eq _ k (differentiableAt_const 0) hs]
    simp [dT, D_const]
  obtain ⟨a, b, c⟩ := c70_forward (((3 * (n - 1) : ℕ) : ℝ) / 2) f x hf hs
  simp only [angular_congr _ _ (h0 _), hz, (h0 _).self_of_nhds, zero_div, Finset.sum_const_zero, Complex.zero_re] at a b c
  cases hA : angularForward (((3 * (n - 1) : ℕ) : ℝ) / 2) f x with
  | mk z z2 sq => rw [hA] at a b c; simp only at a b c; rw [a, b, c]

end

/-- A branch `f` as required exists at every configuration of distinct electrons. -/
theorem laughlin_branch (hn : 0 < n) (flux : ℕ) (x : Conf n) (ha : Apart x) (hacc : (laughlin flux 1 x).isSome) :
    ∃ f : Conf n → ℂ, ContDiffAt ℝ 2 f x ∧ ∀ᶠ y in 𝓝 x, ((laughlin flux 1 y).map valueC).join = some (Complex.exp (f y)) := by
  have hflux := (c67_laughlin_accepts hn flux 1 x).1 hacc
  set s : ℂ := ∏ i : Fin n, ∏ _j ∈ Finset.Ioi i, (-1 : ℂ)
  have hs0 : s ≠ 0 := Finset.prod_ne_zero_iff.2 fun i _ => Finset.prod_ne_zero_iff.2 fun j _ => by norm_num
  have hc : ∀ y : Conf n, Apart y → cube y ≠ 0 := fun y hy => by
    rw [cube_eq]
    exact pow_ne_zero _ (Finset.prod_ne_zero_iff.2 fun i _ => Finset.prod_ne_zero_iff.2 fun j hj => hy i j (Finset.mem_Ioi.1 hj).ne)
  have hx : s * cube x ≠ 0 := mul_ne_zero hs0 (hc x ha)
  have h1 : ContDiff ℝ 2 fun y : Conf n => s * cube y / (s * cube x) := (contDiff_const.mul contDiff_cube).div_const _
  refine ⟨fun y => Complex.log (s * cube y / (s * cube x)) + Complex.log (s * cube x), ?_, ?_⟩
  · refine ContDiffAt.add ?_ contDiffAt_const
    have h2 : ContDiffAt ℝ 2 Complex.log (s * cube x / (s * cube x)) := by
      rw [div_self hx]
      exact (Complex.contDiffAt_log (by simp)).restrict_scalars ℝ
    exact h2.comp x h1.contDiffAt
  · filter_upwards [apart_eventually ha] with y hy
    rw [laughlin_value flux y ((c67_laughlin_accepts hn flux 1 y).2 hflux) hy, Complex.exp_add, Complex.exp_log hx,
      Complex.exp_log (div_ne_zero (mul_ne_zero hs0 (hc y hy)) hx), div_mul_cancel₀ _ hx]

/-- C69, C70: two electrons at flux 3, on one meridian at polar angles 1 and 2. -/
example : ∃ f : Conf 2 → ℂ, sphereHessian ((3 : ℕ) / 2) (Real.sqrt 1.5) f ![(1, 0), (2, 0)] = 1 ∧
    angularHessian ((3 : ℕ) / 2) f ![(1, 0), (2, 0)] = ⟨0, 0, 0⟩ := by
  have ha : Apart (![(1, 0), (2, 0)] : Conf 2) := by
    have h1 : Real.sin (2⁻¹ : ℝ) ≠ 0 := (Real.sin_pos_of_pos_of_lt_pi (by norm_num) (by linarith [Real.two_le_pi])).ne'
    have h2 : (Real.sin (2⁻¹ : ℝ) : ℂ) = Complex.sin 1 * Complex.cos (1 / 2) - Complex.cos 1 * Complex.sin (1 / 2) := by
      rw [← Complex.sin_sub]; push_cast; congr 1; norm_num
    intro i j hij
    have h3 : (Real.sin (2⁻¹ : ℝ) : ℂ) ≠ 0 := by exact_mod_cast h1
    rw [h2] at h3
    fin_cases i <;> fin_cases j
    · exact absurd rfl hij
    · intro h0; apply h3; simp [uOf, vOf] at h0 ⊢; linear_combination -h0
    · intro h0; apply h3; simp [uOf, vOf] at h0 ⊢; linear_combination h0
    · exact absurd rfl hij
  have hacc : (laughlin 3 1 (![(1, 0), (2, 0)] : Conf 2)).isSome := (c67_laughlin_accepts (by norm_num) 3 1 _).2 rfl
  obtain ⟨f, hf, hv⟩ := laughlin_branch (by norm_num) 3 _ ha hacc
  have hs : ∀ i, Real.sin ((![(1, 0), (2, 0)] : Conf 2) i).1 ≠ 0 := by
    intro i
    have hp := Real.pi_gt_three
    fin_cases i
    · exact (Real.sin_pos_of_pos_of_lt_pi (by norm_num) (by norm_num; linarith)).ne'
    · exact (Real.sin_pos_of_pos_of_lt_pi (by norm_num) (by norm_num; linarith)).ne'
  refine ⟨f, ?_, (c70_laughlin (by norm_num) 3 f _ hf hs ha hacc hv).1⟩
  rw [c69_laughlin (by norm_num) 3 f _ hf hs ha hacc hv]
  have : ((Real.sqrt 1.5 : ℝ) : ℂ) ^ 2 = 1.5 := by
    rw [← Complex.ofReal_pow, Real.sq_sqrt (by norm_num)]; norm_num
  rw [this]
  norm_num

end Jaqmc.Kinetic.Props
