import Verif.Model.HallEnergy
import Verif.Spec.HallEnergy
import Verif.Props.SphereAngular
import Verif.Props.SphereKinetic
import Verif.Props.PairCorrelation
/-! C98: the training loss on the Haldane sphere. -/
namespace Jaqmc.HallEnergy.Props
open Jaqmc.HallStats Jaqmc.HallStats.Spec Jaqmc.HallStats.Props Jaqmc.Kinetic Jaqmc.Kinetic.Spec Jaqmc.Kinetic.Props Jaqmc.HallEnergy Jaqmc.HallEnergy.Spec
open Jaqmc.Stats Jaqmc.Laplacian.Spec
open scoped BigOperators Topology

variable {n : ℕ}

theorem dist_point (e f : ℝ × ℝ) : Real.sqrt (2 - 2 * cos12 e f) = dist (point e) (point f) := by
  rw [dist_eq_norm, cos12_inner, ← Real.sqrt_sq (norm_nonneg (point e - point f)), @norm_sub_sq_real, norm_point, norm_point]
  congr 1
  ring

/-- C98, the interaction: every pair of electrons contributes `strength` divided by its chord distance on the sphere of radius `r`, once.  (At coinciding
electrons the code has `inf`.) -/
theorem c98_potential (r strength : ℝ) (hr : 0 < r) (e : Fin n → ℝ × ℝ) : potential r strength e = coulomb r strength e := by
  unfold potential coulomb
  simp only [dist_point]
  rw [Finset.sum_filter, Fintype.sum_prod_type, Finset.sum_div, Finset.sum_mul]
  refine Finset.sum_congr rfl fun i _ => ?_
  rw [Finset.sum_div, Finset.sum_mul]
  refine Finset.sum_congr rfl fun j _ => ?_
  split_ifs
  · rw [dist_smul₀, Real.norm_eq_abs, abs_of_pos hr]
    field_simp
  · simp

/-- C98, the radius: the configured one, and without one the radius at which the magnetic field `Q / R²` through the sphere, with
`2Q` flux quanta, is one (the magnetic length is the unit of length). -/
theorem c98_radius (c : Config) :
    (∀ R, c.radius = some R → c.r = R) ∧
    (c.radius = none → 0 < c.flux → 0 < c.r ∧ ((c.flux : ℝ) / 2) / c.r ^ 2 = 1) := by
  constructor
  · intro R h
    simp [Config.r, h]
  · intro h hf
    have hp : (0 : ℝ) < (c.flux : ℝ) / 2 := by positivity
    have : c.r = Real.sqrt ((c.flux : ℝ) / 2) := by simp [Config.r, h]
    rw [this, Real.sq_sqrt hp.le]
    exact ⟨Real.sqrt_pos.2 hp, div_self hp.ne'⟩

/-- C98, the interaction does not change when the sphere is rotated or reflected. -/
theorem c98_rotation (r strength : ℝ) (hr : 0 < r) (U : EuclideanSpace ℝ (Fin 3) →ₗᵢ[ℝ] EuclideanSpace ℝ (Fin 3)) (e e' : Fin n → ℝ × ℝ)
    (h : ∀ i, point (e' i) = U (point (e i))) : potential r strength e' = potential r strength e := by
  rw [c98_potential r strength hr, c98_potential r strength hr]
  unfold coulomb
  refine Finset.sum_congr rfl fun p _ => ?_
  rw [h, h, ← map_smul, ← map_smul, U.dist_map]

theorem coulomb_sym (r strength : ℝ) (e : Fin n → ℝ × ℝ) :
    2 * coulomb r strength e = ∑ i, ∑ j, if i = j then 0 else strength / dist (r • point (e i)) (r • point (e j)) := by
  unfold coulomb
  rw [Finset.sum_filter, Fintype.sum_prod_type, two_mul]
  conv_lhs => rw [add_comm]; arg 1; rw [Finset.sum_comm]
  rw [← Finset.sum_add_distrib]
  refine Finset.sum_congr rfl fun i _ => ?_
  rw [← Finset.sum_add_distrib]
  refine Finset.sum_congr rfl fun j _ => ?_
  rcases lt_trichotomy i j with h | h | h
  · simp [h, h.not_gt, h.ne]
  · simp [h]
  · simp [h, h.not_gt, h.ne', dist_comm]

/-- C98, the interaction does not depend on the order of the electrons. -/
theorem c98_permutation (r strength : ℝ) (hr : 0 < r) (e : Fin n → ℝ × ℝ) (σ : Equiv.Perm (Fin n)) :
    potential r strength (fun i => e (σ i)) = potential r strength e := by
  rw [c98_potential r strength hr, c98_potential r strength hr]
  have h : 2 * coulomb r strength (fun i => e (σ i)) = 2 * coulomb r strength e := by
    rw [coulomb_sym, coulomb_sym, ← Equiv.sum_comp σ (fun i => ∑ j, if i = j then 0 else strength / dist (r • point (e i)) (r • point (e j)))]
    refine Finset.sum_congr rfl fun i _ => ?_
    rw [← Equiv.sum_comp σ (fun j => if σ i = j then 0 else strength / dist (r • point (e (σ i))) (r • point (e j)))]
    simp
  linarith

/-- Two electrons at opposite poles of a sphere of radius 3 repel with energy `1/6`. -/
example : potential 3 1 ![(0, 0), (Real.pi, 0)] = 1 / 6 := by
  unfold potential cos12 xyz
  simp [Fin.sum_univ_succ]
  rw [show (2 + 2 : ℝ) = 2 ^ 2 by norm_num, Real.sqrt_sq (by norm_num)]
  norm_num

/-! ### The loss of one walker -/

/-- In forward mode: what `forward_laplacian` returned is right (C44). -/
def ModeOk (mode : KMode n) (f : Conf n → ℂ) (x : Conf n) : Prop :=
  match mode with
  | .hessian => True
  | .forward jac lap => ∃ v, IsLaplacian x (fun k : Fin n × Fin 2 => sphereWeights x k.1 k.2 • eDir k.1 k.2) f v (fun k => jac k.1 k.2) lap

theorem kinetic_eq (mode : KMode n) (Q r : ℝ) (f : Conf n → ℂ) (x : Conf n) (hf : ContDiffAt ℝ 2 f x) (hs : ∀ i, Real.sin (x i).1 ≠ 0) (hm : ModeOk mode f x) :
    let ψ := fun y => Complex.exp (f y)
    kineticStats mode Q r f x = [("energy:kinetic", .scalar (1 / (2 * (r : ℂ) ^ 2) * (∑ i, lambdaSq Q i ψ x) / ψ x)),
      ("angular_momentum_z", .scalar ((angular Q 2 ψ x / ψ x).re : ℂ)), ("angular_momentum_z_square", .scalar ((angular Q 2 (angular Q 2 ψ) x / ψ x).re : ℂ)),
      ("angular_momentum_square", .scalar (((∑ k, angular Q k (angular Q k ψ) x) / ψ x).re : ℂ))] := by
  intro ψ
  have hψ : ψ x ≠ 0 := Complex.exp_ne_zero _
  unfold kineticStats
  cases mode with
  | hessian =>
    obtain ⟨a, b, c⟩ := c70_hessian Q f x hf hs
    have k := c69_hessian Q r f x hf hs
    simp only [a, b, c]
    rw [eq_div_of_mul_eq hψ k]
  | forward jac lap =>
    obtain ⟨a, b, c⟩ := c70_forward Q f x hf hs
    obtain ⟨v, hv⟩ := hm
    have k := c69_forward Q r f x hf hs v jac lap hv
    simp only [a, b, c]
    rw [eq_div_of_mul_eq hψ k]

theorem diff_exp (f : Conf n → ℂ) (x : Conf n) (hf : ContDiffAt ℝ 2 f x) : DifferentiableAt ℝ (fun y => Complex.exp (f y)) x :=
  (hf.differentiableAt (by norm_num)).cexp

theorem diff_angular (Q : ℝ) (k : Fin 3) (f : Conf n → ℂ) (x : Conf n) (hf : ContDiffAt ℝ 2 f x) (hs : ∀ i, Real.sin (x i).1 ≠ 0) :
    DifferentiableAt ℝ (angular Q k fun y => Complex.exp (f y)) x := by
  have h1 : (angular Q k fun y => Complex.exp (f y)) =ᶠ[𝓝 x] fun y => Complex.exp (f y) * ell Q f k y := by
    filter_upwards [hf.eventually (by norm_num), sin_eventually hs] with y hy hsy
    exact (angular_psi Q hy hsy k).1
  exact h1.differentiableAt_iff.2 ((diff_exp f x hf).fun_mul (diff_ell Q hf hs k))

theorem angular_sub (Q : ℝ) (k : Fin 3) {F G : Conf n → ℂ} {x : Conf n} (hF : DifferentiableAt ℝ F x) (hG : DifferentiableAt ℝ G x) (c : ℂ)
    (hs : ∀ i, Real.sin (x i).1 ≠ 0) : angular Q k (fun y => F y - c * G y) x = angular Q k F x - c * angular Q k G x := by
  rw [angular_eq Q k (hF.fun_sub (hG.const_mul c)) hs, angular_eq Q k hF hs, angular_eq Q k hG hs]
  have : dT (fun y => F y - c * G y) k x = dT F k x - c * dT G k x := by
    unfold dT
    rw [Finset.mul_sum, ← Finset.sum_sub_distrib]
    refine Finset.sum_congr rfl fun i _ => ?_
    rw [D_sub _ hF (hG.const_mul c), D_sub _ hF (hG.const_mul c), D_const_mul _ _ hG, D_const_mul _ _ hG]
    ring
  rw [this]
  ring

theorem lzShift_twice (Q c : ℝ) (f : Conf n → ℂ) (x : Conf n) (hf : ContDiffAt ℝ 2 f x) (hs : ∀ i, Real.sin (x i).1 ≠ 0) :
    lzShift Q c (lzShift Q c fun y => Complex.exp (f y)) x =
      angular Q 2 (angular Q 2 fun y => Complex.exp (f y)) x - 2 * c * angular Q 2 (fun y => Complex.exp (f y)) x + c ^ 2 * Complex.exp (f x) := by
  show angular Q 2 (fun y => angular Q 2 (fun y => Complex.exp (f y)) y - c * Complex.exp (f y)) x - c * (angular Q 2 (fun y => Complex.exp (f y)) x - c * Complex.exp (f x)) = _
  rw [angular_sub Q 2 (diff_angular Q 2 f x hf hs) (diff_exp f x hf) c hs]
  ring

theorem loss_of (c : Config) (mode : KMode n) (f : Conf n → ℂ) (x : Conf n) (e v : ℂ) (z z2 l2 : ℝ)
    (hk : kineticStats mode ((c.flux : ℝ) / 2) c.r f x = [("energy:kinetic", .scalar e), ("angular_momentum_z", .scalar (z : ℂ)),
      ("angular_momentum_z_square", .scalar (z2 : ℂ)), ("angular_momentum_square", .scalar (l2 : ℂ))])
    (hv : (potential c.r c.strength x : ℂ) = v) :
    loss c mode f x = .ok (e + v + ((c.penalty.lzPenalty * (z2 - 2 * c.penalty.lzCenter * z + c.penalty.lzCenter ^ 2) + c.penalty.l2Penalty * l2 : ℝ) : ℂ)) := by
  have ht : totalEnergy none ([("energy:kinetic", .scalar e), ("angular_momentum_z", .scalar (z : ℂ)), ("angular_momentum_z_square", .scalar (z2 : ℂ)),
      ("angular_momentum_square", .scalar (l2 : ℂ)), ("energy:potential", .scalar v)] : Dict (Stat ℂ)) = .ok (e + v) := by
    unfold totalEnergy
    have : List.filter isEnergyKey ["energy:kinetic", "angular_momentum_z", "angular_momentum_z_square", "angular_momentum_square", "energy:potential"] =
      ["energy:kinetic", "energy:potential"] := by decide +kernel
    simp only [List.map_cons, List.map_nil, this]
    simp [sumEnergies, List.lookup]
  unfold loss walkerStats lossKey
  simp only [hk, hv]
  simp only [Dict.update, List.foldl, Dict.set, show ("energy:kinetic" = "angular_momentum_z") = False by decide +kernel]
  simp [Dict.set]
  rw [ht]
  simp [bind, Except.bind, pure, Except.pure]
  by_cases h1 : c.penalty.lzPenalty = 0 <;> by_cases h2 : c.penalty.l2Penalty = 0
  all_goals
    simp [hasPenalties, penalizedLoss, get, h1, h2, Dict.set, List.lookup, bind, Except.bind, pure, Except.pure]
  all_goals ring

/-- C98, the loss of one walker: for `ψ = exp(log psi)`, `Hψ / ψ` plus the real part of `(λ_z (L_z - c)² + λ_2 L²) ψ / ψ`, in every Laplacian mode, whether or not
penalties are configured. -/
theorem c98_loss (c : Config) (hr : 0 < c.r) (mode : KMode n) (f : Conf n → ℂ) (x : Conf n) (hf : ContDiffAt ℝ 2 f x) (hs : ∀ i, Real.sin (x i).1 ≠ 0)
    (hm : ModeOk mode f x) :
    let ψ := fun y => Complex.exp (f y)
    let Q : ℝ := (c.flux : ℝ) / 2
    loss c mode f x = .ok (H Q c.r c.strength ψ x / ψ x
      + ((penalty Q c.penalty.lzCenter c.penalty.lzPenalty c.penalty.l2Penalty ψ x / ψ x).re : ℝ)) := by
  intro ψ Q
  have hψ : ψ x ≠ 0 := Complex.exp_ne_zero _
  have hk := kinetic_eq mode Q c.r f x hf hs hm
  have hp := c98_potential c.r c.strength hr x
  have hH : H Q c.r c.strength ψ x / ψ x = 1 / (2 * (c.r : ℂ) ^ 2) * (∑ i, lambdaSq Q i ψ x) / ψ x + (coulomb c.r c.strength x : ℂ) := by
    unfold H
    rw [add_div, mul_div_cancel_right₀ _ hψ]
  have hP : (penalty Q c.penalty.lzCenter c.penalty.lzPenalty c.penalty.l2Penalty ψ x / ψ x).re =
      c.penalty.lzPenalty * ((angular Q 2 (angular Q 2 ψ) x / ψ x).re - 2 * c.penalty.lzCenter * (angular Q 2 ψ x / ψ x).re + c.penalty.lzCenter ^ 2)
      + c.penalty.l2Penalty * ((∑ k, angular Q k (angular Q k ψ) x) / ψ x).re := by
    unfold penalty
    rw [lzShift_twice Q _ f x hf hs]
    have : ((c.penalty.lzPenalty : ℂ) * (angular Q 2 (angular Q 2 fun y => Complex.exp (f y)) x -
        2 * c.penalty.lzCenter * angular Q 2 (fun y => Complex.exp (f y)) x + (c.penalty.lzCenter : ℂ) ^ 2 * Complex.exp (f x)) +
        (c.penalty.l2Penalty : ℂ) * ∑ k, angular Q k (angular Q k ψ) x) / ψ x =
      (c.penalty.lzPenalty : ℂ) * (angular Q 2 (angular Q 2 ψ) x / ψ x - (2 * c.penalty.lzCenter : ℝ) * (angular Q 2 ψ x / ψ x) + ((c.penalty.lzCenter ^ 2 : ℝ) : ℂ))
      + (c.penalty.l2Penalty : ℂ) * ((∑ k, angular Q k (angular Q k ψ) x) / ψ x) := by
      have : Complex.exp (f x) = ψ x := rfl
      rw [this]
      push_cast
      field_simp
      rfl
    rw [this, Complex.add_re, Complex.re_ofReal_mul, Complex.re_ofReal_mul, Complex.add_re, Complex.sub_re, Complex.re_ofReal_mul, Complex.ofReal_re]
  rw [hH, hP]
  exact loss_of c mode f x _ _ _ _ _ hk (congrArg _ hp)

end Jaqmc.HallEnergy.Props
