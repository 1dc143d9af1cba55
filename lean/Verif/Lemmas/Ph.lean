import Verif.Model.Ph
import Verif.Spec.Ph
import Verif.Lemmas.Kinetic
import Mathlib.Analysis.SpecialFunctions.Pow.Deriv
import Mathlib.Analysis.SpecialFunctions.Sqrt
import Mathlib.Topology.Algebra.Module.FiniteDimension
/-! Calculus and linear algebra for the pseudo-Hamiltonian estimator (C92, C93). -/
namespace Jaqmc.Ph
open Filter Topology Matrix
open Jaqmc.Kinetic (pd pdC D D_congr D_mul D_add D_sub D_sum D_const D_const_mul eventually_diff diff_D D_symm pdC_eq pd_pd D_psi)
open scoped BigOperators ContDiff

variable {n A : ℕ}

section
variable {K : Type} [NormedField K] [NormedAlgebra ℝ K]

theorem update_deriv (x : Conf n) (i : Fin n) (k : Fin 3) (t : ℝ) :
    HasDerivAt (fun t => Function.update x i (Function.update (x i) k t)) (dir i k) t := by
  have h1 := hasDerivAt_update (x i) k t
  have h2 := (hasFDerivAt_update (𝕜 := ℝ) x (i := i) (Function.update (x i) k t)).comp_hasDerivAt t h1
  have e : dir i k = (ContinuousLinearMap.pi (Pi.single i (ContinuousLinearMap.id ℝ (Fin 3 → ℝ)))) (Pi.single k 1) := by
    funext j
    rcases eq_or_ne j i with rfl | h
    · simp [dir]
    · simp [dir, h]
  rw [e]
  exact h2

theorem partial_eq {F : Conf n → K} {x : Conf n} (i : Fin n) (k : Fin 3) (h : DifferentiableAt ℝ F x) :
    Spec.partial' i k F x = D (dir i k) F x := by
  have hx : Function.update x i (Function.update (x i) k (x i k)) = x := by simp
  unfold Spec.partial'
  have hF : HasFDerivAt F (fderiv ℝ F x) (Function.update x i (Function.update (x i) k (x i k))) := by
    rw [hx]; exact h.hasFDerivAt
  exact (hF.comp_hasDerivAt (x i k) (update_deriv x i k (x i k))).deriv

theorem D_smul {E : Type} [NormedAddCommGroup E] [NormedSpace ℝ E] {c : E → ℝ} {F : E → K} {x : E} (d : E)
    (hc : DifferentiableAt ℝ c x) (hF : DifferentiableAt ℝ F x) :
    D d (fun y => c y • F y) x = D d c x • F x + c x • D d F x := by
  unfold D
  rw [fderiv_fun_smul hc hF]
  simp [add_comm]

theorem coord_diff (i : Fin n) (k : Fin 3) (r : ℝ) (x : Conf n) : DifferentiableAt ℝ (fun y : Conf n => y i k - r) x := by
  fun_prop

theorem coord_D (i : Fin n) (k l : Fin 3) (r : ℝ) (x : Conf n) :
    D (dir i l) (fun y : Conf n => y i k - r) x = if k = l then 1 else 0 := by
  unfold D
  rw [fderiv_sub_const]
  let P : Conf n →L[ℝ] ℝ := (ContinuousLinearMap.proj (R := ℝ) (φ := fun _ : Fin 3 => ℝ) k).comp
    (ContinuousLinearMap.proj (R := ℝ) (φ := fun _ : Fin n => Fin 3 → ℝ) i)
  have : (fun y : Conf n => y i k) = P := rfl
  rw [this, P.fderiv]
  simp [P, dir, Pi.single_apply]

/-- First application of the rotation. -/
theorem rot_eq {F : Conf n → K} {x : Conf n} (i : Fin n) (R : Pt) (k : Fin 3) (h : DifferentiableAt ℝ F x) :
    Spec.rot i R k F x = (x i (k + 1) - R (k + 1)) • D (dir i (k + 2)) F x
      - (x i (k + 2) - R (k + 2)) • D (dir i (k + 1)) F x := by
  unfold Spec.rot
  rw [partial_eq _ _ h, partial_eq _ _ h]

/-- The squared angular momentum in terms of first and second derivatives. -/
theorem angularSq_eq {F : Conf n → K} {x : Conf n} (i : Fin n) (R : Pt) (hF : ContDiffAt ℝ 2 F x) :
    Spec.angularSq i R F x =
      (2 : ℝ) • (∑ k, rel (x i) R k • D (dir i k) F x)
      - ((∑ k, rel (x i) R k ^ 2) • (∑ k, D (dir i k) (D (dir i k) F) x)
        - ∑ j, ∑ k, (rel (x i) R j * rel (x i) R k) • D (dir i k) (D (dir i j) F) x) := by
  have ev : ∀ k, Spec.rot i R k F =ᶠ[𝓝 x] fun y => (y i (k + 1) - R (k + 1)) • D (dir i (k + 2)) F y
      - (y i (k + 2) - R (k + 2)) • D (dir i (k + 1)) F y := by
    intro k
    filter_upwards [eventually_diff hF] with y hy
    exact rot_eq i R k hy
  have dd : ∀ k, DifferentiableAt ℝ (D (dir i k) F) x := fun k => diff_D hF _
  have d1 : ∀ k l, DifferentiableAt ℝ (fun y : Conf n => (y i k - R k) • D (dir i l) F y) x :=
    fun k l => (coord_diff i k _ x).smul (dd l)
  have hd : ∀ k, DifferentiableAt ℝ (Spec.rot i R k F) x := fun k =>
    (ev k).differentiableAt_iff.2 ((d1 _ _).sub (d1 _ _))
  have hD : ∀ k l, D (dir i l) (Spec.rot i R k F) x =
      ((if k + 1 = l then (1 : ℝ) else 0) • D (dir i (k + 2)) F x + (x i (k + 1) - R (k + 1)) • D (dir i l) (D (dir i (k + 2)) F) x)
      - ((if k + 2 = l then (1 : ℝ) else 0) • D (dir i (k + 1)) F x + (x i (k + 2) - R (k + 2)) • D (dir i l) (D (dir i (k + 1)) F) x) := by
    intro k l
    rw [D_congr _ (ev k), D_sub _ (d1 _ _) (d1 _ _), D_smul _ (coord_diff i _ _ x) (dd _), D_smul _ (coord_diff i _ _ x) (dd _),
      coord_D, coord_D]
  unfold Spec.angularSq
  simp only [rot_eq i R _ (hd _), hD]
  simp only [Fin.sum_univ_three, rel]
  have s := fun a b => D_symm hF (dir i a) (dir i b)
  rw [s 1 0, s 2 0, s 2 1]
  simp only [show (0 : Fin 3) + 1 = 1 from rfl, show (0 : Fin 3) + 2 = 2 from rfl, show (1 : Fin 3) + 1 = 2 from rfl,
    show (1 : Fin 3) + 2 = 0 from rfl, show (2 : Fin 3) + 1 = 0 from rfl, show (2 : Fin 3) + 2 = 1 from rfl,
    show ((1 : Fin 3) = 2) = False by decide, show ((2 : Fin 3) = 1) = False by decide, show ((1 : Fin 3) = 0) = False by decide,
    show ((2 : Fin 3) = 0) = False by decide, show ((0 : Fin 3) = 1) = False by decide, show ((0 : Fin 3) = 2) = False by decide,
    s 1 0, s 2 0, s 2 1, if_true, if_false]
  simp only [Algebra.smul_def, map_sub, map_mul, map_add, map_pow, map_one, map_zero, map_ofNat]
  ring

theorem laplacian_eq {F : Conf n → K} {x : Conf n} (hF : ContDiffAt ℝ 2 F x) :
    Spec.laplacian F x = ∑ i, ∑ k, D (dir i k) (D (dir i k) F) x := by
  unfold Spec.laplacian
  refine Finset.sum_congr rfl fun i _ => Finset.sum_congr rfl fun k _ => ?_
  have ev : Spec.partial' i k F =ᶠ[𝓝 x] D (dir i k) F := by
    filter_upwards [eventually_diff hF] with y hy
    exact partial_eq i k hy
  rw [partial_eq _ _ (ev.differentiableAt_iff.2 (diff_D hF _)), D_congr _ ev]

end

/-! ### The mass matrix -/

theorem norm3_nonneg (v : Pt) : 0 ≤ norm3 v := Real.sqrt_nonneg _

theorem norm3_sq (v : Pt) : norm3 v ^ 2 = ∑ k, v k ^ 2 :=
  Real.sq_sqrt (Finset.sum_nonneg fun k _ => sq_nonneg _)

theorem norm3_pos {v : Pt} (h : v ≠ 0) : 0 < norm3 v := by
  refine Real.sqrt_pos.mpr ?_
  obtain ⟨k, hk⟩ := Function.ne_iff.mp h
  have hk' : v k ≠ 0 := hk
  exact Finset.sum_pos' (fun k _ => sq_nonneg _) ⟨k, Finset.mem_univ _, by positivity⟩

theorem norm3_invR (v : Pt) : norm3 v = (∑ k, v k ^ 2) * invR (norm3 v) := by
  rw [← norm3_sq]
  unfold invR
  split
  · field_simp
  · rename_i h
    have := le_antisymm (not_lt.mp h) (norm3_nonneg v)
    rw [this]; simp

theorem invR_eq (r : ℝ) (h : 0 ≤ r) : invR r = r⁻¹ := by
  unfold invR
  split
  · rw [one_div]
  · rename_i h'
    rw [le_antisymm (not_lt.mp h') h, _root_.inv_zero]

/-- The correction in terms of `v_{L²} = l2 / r`. -/
theorem correction_eq (x : Pt) (atoms : Fin A → Pt) (l2 : Fin A → ℝ) (i j : Fin 3) :
    correction x atoms l2 i j = ∑ a, (l2 a * invR (norm3 (rel x (atoms a)))) *
      ((∑ k, rel x (atoms a) k ^ 2) * (1 : Mat) i j - rel x (atoms a) i * rel x (atoms a) j) := by
  unfold correction
  refine Finset.sum_congr rfl fun a _ => ?_
  conv_lhs => rw [show l2 a * (norm3 (rel x (atoms a)) * (1 : Mat) i j - rel x (atoms a) i * rel x (atoms a) j * invR (norm3 (rel x (atoms a)))) =
    l2 a * (((∑ k, rel x (atoms a) k ^ 2) * invR (norm3 (rel x (atoms a)))) * (1 : Mat) i j - rel x (atoms a) i * rel x (atoms a) j * invR (norm3 (rel x (atoms a)))) by
      rw [← norm3_invR]]
  ring

theorem mass_symm (x : Pt) (atoms : Fin A → Pt) (l2 : Fin A → ℝ) (i j : Fin 3) : mass x atoms l2 i j = mass x atoms l2 j i := by
  unfold mass
  rw [Matrix.add_apply, Matrix.add_apply, Matrix.smul_apply, Matrix.smul_apply]
  congr 1
  · rcases eq_or_ne i j with rfl | h
    · rfl
    · rw [Matrix.one_apply_ne h, Matrix.one_apply_ne h.symm]
  · rw [correction_eq, correction_eq]
    refine Finset.sum_congr rfl fun a _ => ?_
    rcases eq_or_ne i j with rfl | h
    · rfl
    · rw [Matrix.one_apply_ne h, Matrix.one_apply_ne h.symm]; ring

/-- Contraction of the mass matrix with a symmetric or unsymmetric array. -/
theorem mass_contract {K : Type} [NormedField K] [NormedAlgebra ℝ K] (x : Pt) (atoms : Fin A → Pt) (l2 : Fin A → ℝ) (T : Fin 3 → Fin 3 → K) :
    ∑ i, ∑ j, mass x atoms l2 i j • T i j = (0.5 : ℝ) • (∑ i, T i i) +
      ∑ a, (l2 a * invR (norm3 (rel x (atoms a)))) •
        ((∑ k, rel x (atoms a) k ^ 2) • (∑ i, T i i) - ∑ i, ∑ j, (rel x (atoms a) i * rel x (atoms a) j) • T i j) := by
  unfold mass
  simp only [Matrix.add_apply, Matrix.smul_apply, correction_eq, add_smul, Finset.sum_add_distrib, Finset.sum_smul]
  congr 1
  · simp [Fin.sum_univ_three, Matrix.one_apply, smul_add]
  · rw [show (∑ i, ∑ j, ∑ a, (l2 a * invR (norm3 (rel x (atoms a))) * ((∑ k, rel x (atoms a) k ^ 2) * (1 : Mat) i j - rel x (atoms a) i * rel x (atoms a) j)) • T i j) =
      ∑ a, ∑ i, ∑ j, (l2 a * invR (norm3 (rel x (atoms a))) * ((∑ k, rel x (atoms a) k ^ 2) * (1 : Mat) i j - rel x (atoms a) i * rel x (atoms a) j)) • T i j by
        rw [Finset.sum_comm]
        rw [Finset.sum_congr rfl fun i _ => Finset.sum_comm]
        rw [Finset.sum_comm]
        exact Finset.sum_congr rfl fun a _ => Finset.sum_comm]
    refine Finset.sum_congr rfl fun a _ => ?_
    simp only [Fin.sum_univ_three, Matrix.one_apply, Algebra.smul_def, map_mul, map_sub, map_add, map_pow]
    simp
    ring

/-! ### The first-order vector -/

theorem rel_diff (R : Pt) (k : Fin 3) (x : Pt) : DifferentiableAt ℝ (fun p : Pt => rel p R k) x := by
  unfold rel; fun_prop

theorem rel_D (R : Pt) (k j : Fin 3) (x : Pt) : D (Pi.single j (1 : ℝ)) (fun p : Pt => rel p R k) x = if k = j then 1 else 0 := by
  unfold D rel
  rw [fderiv_sub_const]
  have : (fun y : Pt => y k) = (ContinuousLinearMap.proj (R := ℝ) (φ := fun _ : Fin 3 => ℝ) k) := rfl
  rw [this, ContinuousLinearMap.fderiv]
  simp [Pi.single_apply]

theorem norm3_has {R x : Pt} (h : x ≠ R) : DifferentiableAt ℝ (fun p : Pt => norm3 (rel p R)) x ∧
    ∀ j, D (Pi.single j (1 : ℝ)) (fun p : Pt => norm3 (rel p R)) x = rel x R j * (norm3 (rel x R))⁻¹ := by
  have hne : rel x R ≠ 0 := fun h0 => h (funext fun k => sub_eq_zero.mp (congrFun h0 k))
  have hp := norm3_pos hne
  have hs : (∑ k, rel x R k ^ 2) ≠ 0 := by rw [← norm3_sq]; positivity
  have hd : DifferentiableAt ℝ (fun p : Pt => ∑ k, rel p R k ^ 2) x :=
    DifferentiableAt.fun_sum fun k _ => (rel_diff R k x).pow 2
  have h1 := (Real.hasDerivAt_sqrt hs).comp_hasFDerivAt x hd.hasFDerivAt
  refine ⟨h1.differentiableAt, fun j => ?_⟩
  have e : (fun p : Pt => norm3 (rel p R)) = Real.sqrt ∘ fun p : Pt => ∑ k, rel p R k ^ 2 := rfl
  have hD : D (Pi.single j (1 : ℝ)) (fun p : Pt => ∑ k, rel p R k ^ 2) x = 2 * rel x R j := by
    have hq : ∀ k ∈ Finset.univ, DifferentiableAt ℝ (fun p : Pt => rel p R k ^ 2) x := fun k _ => (rel_diff R k x).pow 2
    rw [D_sum _ _ hq]
    simp only [pow_two]
    rw [Finset.sum_congr rfl fun k _ => D_mul _ (rel_diff R k x) (rel_diff R k x)]
    simp only [rel_D]
    simp [Finset.sum_add_distrib]
    ring
  unfold D at hD ⊢
  rw [e, h1.fderiv]
  simp only [_root_.smul_apply, hD, smul_eq_mul]
  have : Real.sqrt (∑ k, rel x R k ^ 2) = norm3 (rel x R) := rfl
  rw [this]
  field_simp

theorem D_inv {E : Type} [NormedAddCommGroup E] [NormedSpace ℝ E] {c : E → ℝ} {x : E} (d : E) (hc : DifferentiableAt ℝ c x) (h : c x ≠ 0) :
    D d (fun y => (c y)⁻¹) x = -(c x ^ 2)⁻¹ * D d c x := by
  have := ((hasDerivAt_inv h).comp_hasFDerivAt x hc.hasFDerivAt).fderiv
  unfold D
  rw [show (fun y => (c y)⁻¹) = (fun y => y⁻¹) ∘ c from rfl, this]
  simp

/-- Away from the atoms the divergence of the mass matrix is the closed form of the forward backend. -/
theorem firstOrder_eq (x : Pt) (atoms : Fin A → Pt) (l2 : Fin A → ℝ) (h : ∀ a, x ≠ atoms a) (k : Fin 3) :
    firstOrderStandard x atoms l2 k = firstOrderForward x atoms l2 k := by
  have hn : ∀ a, norm3 (rel x (atoms a)) ≠ 0 := fun a =>
    (norm3_pos fun h0 => h a (funext fun k => sub_eq_zero.mp (congrFun h0 k))).ne'
  have dn := fun a => (norm3_has (h a)).1
  have dD := fun a => (norm3_has (h a)).2
  have term : ∀ a j, DifferentiableAt ℝ (fun p : Pt => l2 a * (norm3 (rel p (atoms a)) * (1 : Mat) j k -
      rel p (atoms a) j * rel p (atoms a) k * (norm3 (rel p (atoms a)))⁻¹)) x := fun a j =>
    (((dn a).mul_const _).sub (((rel_diff _ _ _).mul (rel_diff _ _ _)).mul ((dn a).inv (hn a)))).const_mul _
  have D1 : ∀ j, pd (Pi.single j 1) (fun p => correction p atoms l2 j k) x = ∑ a, l2 a *
      (rel x (atoms a) j * (norm3 (rel x (atoms a)))⁻¹ * (1 : Mat) j k -
        ((rel x (atoms a) k + rel x (atoms a) j * (if k = j then 1 else 0)) * (norm3 (rel x (atoms a)))⁻¹ +
          rel x (atoms a) j * rel x (atoms a) k * (-(norm3 (rel x (atoms a)) ^ 2)⁻¹ * (rel x (atoms a) j * (norm3 (rel x (atoms a)))⁻¹)))) := by
    intro j
    have e : (fun p => correction p atoms l2 j k) = fun p => ∑ a, l2 a * (norm3 (rel p (atoms a)) * (1 : Mat) j k -
        rel p (atoms a) j * rel p (atoms a) k * (norm3 (rel p (atoms a)))⁻¹) := by
      funext p
      unfold correction
      simp only [invR_eq _ (norm3_nonneg _)]
    rw [e]
    show D (Pi.single j (1 : ℝ)) _ x = _
    rw [D_sum _ _ fun a _ => term a j]
    refine Finset.sum_congr rfl fun a _ => ?_
    have t1 : DifferentiableAt ℝ (fun p : Pt => norm3 (rel p (atoms a)) * (1 : Mat) j k) x := (dn a).mul_const _
    have t2 : DifferentiableAt ℝ (fun p : Pt => rel p (atoms a) j * rel p (atoms a) k) x := (rel_diff _ _ _).mul (rel_diff _ _ _)
    have t3 : DifferentiableAt ℝ (fun p : Pt => (norm3 (rel p (atoms a)))⁻¹) x := (dn a).inv (hn a)
    have t4 : DifferentiableAt ℝ (fun p : Pt => rel p (atoms a) j * rel p (atoms a) k * (norm3 (rel p (atoms a)))⁻¹) x := t2.mul t3
    have t5 : DifferentiableAt ℝ (fun p : Pt => norm3 (rel p (atoms a)) * (1 : Mat) j k -
      rel p (atoms a) j * rel p (atoms a) k * (norm3 (rel p (atoms a)))⁻¹) x := t1.sub t4
    rw [D_const_mul _ _ t5, D_sub _ t1 t4, D_mul _ t2 t3, D_mul _ (rel_diff _ _ _) (rel_diff _ _ _),
      D_inv _ (dn a) (hn a), D_mul _ (dn a) (differentiableAt_const _), D_const, dD, rel_D, rel_D]
    simp
  unfold firstOrderStandard firstOrderForward
  simp only [D1]
  rw [Finset.sum_comm, ← Finset.sum_neg_distrib]
  refine Finset.sum_congr rfl fun a _ => ?_
  rw [invR_eq _ (norm3_nonneg _)]
  have hr := norm3_sq (rel x (atoms a))
  have h0 := hn a
  generalize norm3 (rel x (atoms a)) = r at *
  generalize rel x (atoms a) = u at *
  simp only [Fin.sum_univ_three] at hr ⊢
  simp only [Matrix.one_apply]
  field_simp
  fin_cases k <;> simp <;> grind

/-! ### The operator -/

/-- The contraction is the pseudo-Hamiltonian applied to `ψ = s exp(f)`. -/
theorem contract_value {K : Type} [RCLike K] (ex : K → K) (hex : ∀ z, HasDerivAt ex (ex z) z) (s : K) {f ψ : Conf n → K} {x : Conf n}
    (hf : ContDiffAt ℝ 2 f x) (hψ2 : ContDiffAt ℝ 2 ψ x) (hψ : ∀ᶠ y in 𝓝 x, ψ y = s * ex (f y)) (atoms : Fin A → Pt) (l2 : Fin n → Fin A → ℝ) :
    contract (fun e => mass (x e) atoms (l2 e)) (fun e => firstOrderForward (x e) atoms (l2 e)) (fun e i => D (dir e i) f x)
      (fun e i j => D (dir e j) (D (dir e i) f) x) * ψ x =
      -(1 / 2) * Spec.laplacian ψ x + ∑ e, ∑ a, (l2 e a * invR (norm3 (rel (x e) (atoms a)))) • Spec.angularSq e (atoms a) ψ x := by
  have d1 : ∀ e k, D (dir e k) ψ x = ψ x * D (dir e k) f x := fun e k => (D_psi ex hex s hf hψ (dir e k) (dir e k)).1.self_of_nhds.2
  have d2 : ∀ e k l, D (dir e l) (D (dir e k) ψ) x = ψ x * (D (dir e l) (D (dir e k) f) x + D (dir e l) f x * D (dir e k) f x) :=
    fun e k l => (D_psi ex hex s hf hψ (dir e k) (dir e l)).2
  rw [laplacian_eq hψ2]
  simp only [angularSq_eq _ _ hψ2, d1, d2]
  unfold contract
  simp only
  rw [← Finset.sum_add_distrib, ← Finset.sum_sub_distrib, Finset.sum_mul, Finset.mul_sum, ← Finset.sum_add_distrib]
  refine Finset.sum_congr rfl fun e _ => ?_
  rw [← Finset.sum_add_distrib, Finset.sum_congr rfl fun i _ => (Finset.sum_add_distrib).symm]
  simp only [← smul_add]
  rw [mass_contract]
  unfold firstOrderForward
  rw [sub_mul, add_mul]
  have h1 : (∑ i, (∑ a, 2 * l2 e a * invR (norm3 (rel (x e) (atoms a))) * rel (x e) (atoms a) i) • D (dir e i) f x) * ψ x =
      ∑ a, ∑ i, (2 * (l2 e a * invR (norm3 (rel (x e) (atoms a))) * rel (x e) (atoms a) i)) • (D (dir e i) f x * ψ x) := by
    rw [Finset.sum_comm, Finset.sum_mul]
    refine Finset.sum_congr rfl fun i _ => ?_
    rw [smul_mul_assoc, Finset.sum_smul]
    exact Finset.sum_congr rfl fun a _ => by congr 1; ring
  rw [h1, Finset.sum_mul]
  have h2 : (0.5 : ℝ) • (∑ i, (D (dir e i) (D (dir e i) f) x + D (dir e i) f x * D (dir e i) f x)) * ψ x =
      (1 / 2) * ∑ i, ψ x * (D (dir e i) (D (dir e i) f) x + D (dir e i) f x * D (dir e i) f x) := by
    rw [← Finset.mul_sum, Algebra.smul_def, show (0.5 : ℝ) = 1 / 2 by norm_num, map_div₀, map_one, map_ofNat]
    ring
  rw [h2, sub_add_eq_sub_sub, sub_right_comm, ← Finset.sum_sub_distrib, sub_eq_neg_add, neg_mul]
  congr 1
  refine Finset.sum_congr rfl fun a _ => ?_
  simp only [Fin.sum_univ_three, Algebra.smul_def, map_mul, map_sub, map_add, map_pow, map_ofNat]
  ring

end Jaqmc.Ph
