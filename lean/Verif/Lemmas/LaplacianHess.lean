import Mathlib.Analysis.Calculus.FDeriv.Symmetric
import Mathlib.Analysis.Complex.Basic
import Mathlib.Analysis.Calculus.ContDiff.Operations
import Verif.Lemmas.LaplacianWrap
/-! Proof of C44 for `wrap_general`: the three ways to compute the Hessian term agree with the second derivative. -/
namespace Jaqmc.Laplacian
open Spec Filter Topology

variable {κ : Type} [Fintype κ]

theorem sum_pick_real {n : ℕ} (v : Fin n → ℝ) :
    v = ∑ i : Fin n, fun j : Fin n => if j.val = i.val then ((v i : ℝ) : ℂ).re else 0 := by
  funext j
  rw [Finset.sum_apply]
  simp only [Complex.ofReal_re, Fin.val_inj]
  rw [Finset.sum_ite_eq Finset.univ j, if_pos (Finset.mem_univ _)]

theorem sum_pick_cplx {n : ℕ} (v : Fin n → ℂ) :
    v = ∑ i : Fin n, fun j : Fin n => if j.val = i.val then v i else 0 := by
  funext j
  rw [Finset.sum_apply]
  simp only [Fin.val_inj]
  rw [Finset.sum_ite_eq Finset.univ j, if_pos (Finset.mem_univ _)]

theorem single_elem : ∀ (t : Ty) (v : Space t), v = ∑ i, single t i (elem t v i)
  | .real _, v => sum_pick_real v
  | .cplx _, v => sum_pick_cplx v

theorem single_add : ∀ (t : Ty) (i : Fin t.size) (c d : ℂ), single t i (c + d) = single t i c + single t i d
  | .real n, i, c, d => by
    funext (j : Fin n)
    show (if j.val = i.val then (c + d).re else 0) = (if j.val = i.val then c.re else 0 : ℝ) + (if j.val = i.val then d.re else 0)
    split <;> simp
  | .cplx n, i, c, d => by
    funext (j : Fin n)
    show (if j.val = i.val then c + d else 0) = (if j.val = i.val then c else 0 : ℂ) + (if j.val = i.val then d else 0)
    split <;> simp

theorem single_smul : ∀ (t : Ty) (i : Fin t.size) (r : ℝ) (c : ℂ), single t i (r * c) = r • single t i c
  | .real n, i, r, c => by
    funext (j : Fin n)
    show (if j.val = i.val then ((r : ℂ) * c).re else 0) = r * (if j.val = i.val then c.re else 0 : ℝ)
    split <;> simp
  | .cplx n, i, r, c => by
    funext (j : Fin n)
    show (if j.val = i.val then (r : ℂ) * c else 0) = r • (if j.val = i.val then c else 0 : ℂ)
    split <;> simp

theorem unit_add : ∀ (vs : List (TVal κ)) (i : Idx vs) (c d : ℂ), unit vs i (c + d) = unit vs i c + unit vs i d
  | .plain _ :: vs, i, c, d => unit_add vs i c d
  | .tracked t _ :: vs, .inl i, c, d => Prod.ext (single_add t i c d) (add_zero (0 : TList vs)).symm
  | .tracked t _ :: vs, .inr i, c, d => Prod.ext (add_zero (0 : Space t)).symm (unit_add vs i c d)

theorem unit_smul : ∀ (vs : List (TVal κ)) (i : Idx vs) (r : ℝ) (c : ℂ), unit vs i (r * c) = r • unit vs i c
  | .plain _ :: vs, i, r, c => unit_smul vs i r c
  | .tracked t _ :: vs, .inl i, r, c => Prod.ext (single_smul t i r c) (smul_zero (A := TList vs) r).symm
  | .tracked t _ :: vs, .inr i, r, c => Prod.ext (smul_zero (A := Space t) r).symm (unit_smul vs i r c)

theorem unit_eq (vs : List (TVal κ)) (i : Idx vs) (c : ℂ) :
    unit vs i c = c.re • unit vs i 1 + c.im • unit vs i Complex.I := by
  rw [← unit_smul, ← unit_smul, ← unit_add, mul_one, Complex.re_add_im]

theorem prod_sum {ι₁ ι₂ X Y : Type} [Fintype ι₁] [Fintype ι₂] [AddCommMonoid X] [AddCommMonoid Y] (y : X × Y)
    (f : ι₁ → X) (g : ι₂ → Y) (h1 : y.1 = ∑ i, f i) (h2 : y.2 = ∑ i, g i) :
    y = ∑ i : ι₁ ⊕ ι₂, Sum.elim (fun i => (f i, (0 : Y))) (fun i => ((0 : X), g i)) i := by
  rw [Fintype.sum_sum_type]
  simp only [Sum.elim_inl, Sum.elim_inr]
  ext1
  · rw [Prod.fst_add, Prod.fst_sum, Prod.fst_sum]
    simp [h1]
  · rw [Prod.snd_add, Prod.snd_sum, Prod.snd_sum]
    simp [h2]

theorem eq_sum_unit : ∀ (vs : List (TVal κ)) (y : TList vs), y = ∑ i, unit vs i (coord vs y i)
  | [], _ => rfl
  | .plain _ :: vs, y => eq_sum_unit vs y
  | .tracked t a :: vs, y => by
    have h := prod_sum (X := Space t) (Y := TList vs) y (fun i => single t i (elem t y.1 i))
      (fun i => unit vs i (coord vs y.2 i)) (single_elem t y.1) (eq_sum_unit vs y.2)
    refine h.trans ?_
    refine Finset.sum_congr rfl fun i _ => ?_
    cases i <;> rfl

theorem coord_im : ∀ (vs : List (TVal κ)) (_ : anyComplex vs = false) (y : TList vs) (i : Idx vs), (coord vs y i).im = 0
  | .plain _ :: vs, h, y, i => coord_im vs h y i
  | .tracked (.real n) _ :: vs, h, y, .inl i => Complex.ofReal_im _
  | .tracked (.real n) _ :: vs, h, y, .inr i => coord_im vs h y.2 i
  | .tracked (.cplx n) _ :: vs, h, _, _ => by simp [anyComplex] at h


/-! ### Second derivatives, on arbitrary spaces -/
section generic
variable {V E I : Type} [NormedAddCommGroup V] [NormedSpace ℝ V] [NormedAddCommGroup E] [NormedSpace ℝ E] [Fintype I]

theorem diff_fderiv {F : V → E} {x : V} (hF : ContDiffAt ℝ 2 F x) : DifferentiableAt ℝ (fderiv ℝ F) x :=
  (hF.fderiv_right (m := 1) (by norm_num)).differentiableAt (by norm_num)

theorem hasFDeriv_dir {F : V → E} {x : V} (hF : ContDiffAt ℝ 2 F x) (v : V) :
    HasFDerivAt (fun y => fderiv ℝ F y v) ((fderiv ℝ (fderiv ℝ F) x).flip v) x := by
  refine ((diff_fderiv hF).hasFDerivAt.clm_apply (hasFDerivAt_const v x)).congr_fderiv ?_
  ext z
  simp

theorem fderiv_dir {F : V → E} {x : V} (hF : ContDiffAt ℝ 2 F x) (v w : V) :
    fderiv ℝ (fun y => fderiv ℝ F y v) x w = fderiv ℝ (fderiv ℝ F) x w v := by
  rw [(hasFDeriv_dir hF v).fderiv]
  rfl

theorem hess_real (B : V →L[ℝ] V →L[ℝ] E) (J : κ → V) (e : I → V) (c : V → I → ℝ) (hy : ∀ y, y = ∑ i, c y i • e i) :
    ∑ i, ∑ j, (∑ k, c (J k) i * c (J k) j) • B (e i) (e j) = ∑ k, B (J k) (J k) := by
  have hk : ∀ k, B (J k) (J k) = ∑ i, ∑ j, (c (J k) i * c (J k) j) • B (e i) (e j) := by
    intro k
    have h1 : B (J k) = ∑ i, c (J k) i • B (e i) := by
      conv_lhs => rw [hy (J k)]
      simp only [map_sum, map_smul]
    have h2 : ∀ A : V →L[ℝ] E, A (J k) = ∑ i, c (J k) i • A (e i) := by
      intro A
      conv_lhs => rw [hy (J k)]
      simp only [map_sum, map_smul]
    conv_lhs => rw [h1]
    rw [ContinuousLinearMap.sum_apply]
    refine Finset.sum_congr rfl fun i _ => ?_
    rw [ContinuousLinearMap.smul_apply, h2, Finset.smul_sum]
    refine Finset.sum_congr rfl fun j _ => ?_
    rw [smul_smul]
  simp only [hk, Finset.sum_smul]
  rw [Finset.sum_comm (s := (Finset.univ : Finset κ))]
  refine Finset.sum_congr rfl fun i _ => ?_
  rw [Finset.sum_comm]

/-- Real output, complex input: the gradient JAX returns, contracted with the direction. -/
theorem hvp_real {n : ℕ} {F : V → Fin n → ℝ} {x : V} (hF : ContDiffAt ℝ 2 F x) (J : κ → V) (u : I → ℂ → V) (c : V → I → ℂ)
    (hy : ∀ y, y = ∑ i, u i (c y i)) (hu : ∀ i z, u i z = z.re • u i 1 + z.im • u i Complex.I) (o : Fin n) :
    (∑ j, ∑ k, fderiv ℝ (fun y => jaxGrad ((fderiv ℝ F y (u j 1) o : ℝ) : ℂ) ((fderiv ℝ F y (u j Complex.I) o : ℝ) : ℂ)) x (J k) *
      c (J k) j).re = ∑ k, fderiv ℝ (fderiv ℝ F) x (J k) (J k) o := by
  set B := fderiv ℝ (fderiv ℝ F) x with hB
  have hJ : ∀ a b : ℝ, jaxGrad a b = a - Complex.I * b := by
    intro a b
    unfold jaxGrad
    simp only [map_div₀, map_add, map_mul, Complex.conj_ofReal, Complex.conj_I, Complex.conj_ofNat]
    ring
  have hd : ∀ v, HasFDerivAt (fun y => fderiv ℝ F y v o)
      ((ContinuousLinearMap.proj (R := ℝ) (φ := fun _ : Fin n => ℝ) o).comp (B.flip v)) x := fun v =>
    (ContinuousLinearMap.proj (R := ℝ) (φ := fun _ : Fin n => ℝ) o).hasFDerivAt.comp x (hasFDeriv_dir hF v)
  have hg : ∀ j w, fderiv ℝ (fun y => jaxGrad ((fderiv ℝ F y (u j 1) o : ℝ) : ℂ) ((fderiv ℝ F y (u j Complex.I) o : ℝ) : ℂ)) x w =
      ((B w (u j 1) o : ℝ) : ℂ) - Complex.I * ((B w (u j Complex.I) o : ℝ) : ℂ) := by
    intro j w
    simp only [hJ]
    have h1 := Complex.ofRealCLM.hasFDerivAt.comp x (hd (u j 1))
    have h2 := (Complex.ofRealCLM.hasFDerivAt.comp x (hd (u j Complex.I))).const_mul Complex.I
    have h3 : HasFDerivAt (fun y => ((fderiv ℝ F y (u j 1) o : ℝ) : ℂ) - Complex.I * ((fderiv ℝ F y (u j Complex.I) o : ℝ) : ℂ)) _ x :=
      h1.sub h2
    rw [h3.fderiv]
    rfl
  have hlin : ∀ (A : V →L[ℝ] Fin n → ℝ) y, A y o = ∑ j, ((c y j).re * A (u j 1) o + (c y j).im * A (u j Complex.I) o) := by
    intro A y
    conv_lhs => rw [hy y]
    rw [map_sum, Finset.sum_apply]
    refine Finset.sum_congr rfl fun j _ => ?_
    rw [hu, map_add, map_smul, map_smul]
    rfl
  rw [Finset.sum_comm, Complex.re_sum]
  refine Finset.sum_congr rfl fun k _ => ?_
  rw [Complex.re_sum, hlin]
  refine Finset.sum_congr rfl fun j _ => ?_
  rw [hg]
  simp
  ring

/-- Complex output and input, holomorphic function: JAX's Hessian. -/
theorem hess_cplx {n : ℕ} {F : V → Fin n → ℂ} {x : V} (hF : ContDiffAt ℝ 2 F x) (J : κ → V) (u : I → ℂ → V) (c : V → I → ℂ)
    (hy : ∀ y, y = ∑ i, u i (c y i)) (hu : ∀ i z, u i z = z.re • u i 1 + z.im • u i Complex.I) (R : V →L[ℝ] V)
    (hR : ∀ i, R (u i 1) = u i Complex.I)
    (hCR : ∀ᶠ y in 𝓝 x, ∀ v o, fderiv ℝ F y (R v) o = Complex.I * fderiv ℝ F y v o) (o : Fin n) :
    ∑ i, ∑ j, (∑ k, c (J k) i * c (J k) j) *
      fderiv ℝ (fun y => jaxGrad (fderiv ℝ F y (u j 1) o) (fderiv ℝ F y (u j Complex.I) o)) x (u i 1) =
    ∑ k, fderiv ℝ (fderiv ℝ F) x (J k) (J k) o := by
  set B := fderiv ℝ (fderiv ℝ F) x with hB
  have hG : ∀ a : ℂ, jaxGrad a (Complex.I * a) = a := by
    intro a
    unfold jaxGrad
    rw [← mul_assoc, Complex.I_mul_I]
    simp
  have hd : ∀ v, HasFDerivAt (fun y => fderiv ℝ F y v o)
      ((ContinuousLinearMap.proj (R := ℝ) (φ := fun _ : Fin n => ℂ) o).comp (B.flip v)) x := fun v =>
    (ContinuousLinearMap.proj (R := ℝ) (φ := fun _ : Fin n => ℂ) o).hasFDerivAt.comp x (hasFDeriv_dir hF v)
  have hg : ∀ j w, fderiv ℝ (fun y => jaxGrad (fderiv ℝ F y (u j 1) o) (fderiv ℝ F y (u j Complex.I) o)) x w = B w (u j 1) o := by
    intro j w
    have he : (fun y => jaxGrad (fderiv ℝ F y (u j 1) o) (fderiv ℝ F y (u j Complex.I) o)) =ᶠ[𝓝 x]
        fun y => fderiv ℝ F y (u j 1) o := by
      filter_upwards [hCR] with y h
      rw [← hR, h, hG]
    rw [he.fderiv_eq, (hd _).fderiv]
    rfl
  have hB2 : ∀ w v, B w (R v) o = Complex.I * B w v o := by
    intro w v
    have he : (fun y => fderiv ℝ F y (R v) o) =ᶠ[𝓝 x] fun y => Complex.I * fderiv ℝ F y v o := by
      filter_upwards [hCR] with y h
      exact h v o
    have h1 := he.fderiv_eq (𝕜 := ℝ)
    rw [(hd _).fderiv, ((hd v).const_mul Complex.I).fderiv] at h1
    exact DFunLike.congr_fun h1 w
  have hsym : ∀ v w, B v w = B w v := fun v w => (hF.isSymmSndFDerivAt (by simp)) v w
  have hB1 : ∀ w v, B (R w) v o = Complex.I * B w v o := by
    intro w v
    rw [hsym, hB2, hsym]
  have hl2 : ∀ w y, B w y o = ∑ j, c y j * B w (u j 1) o := by
    intro w y
    conv_lhs => rw [hy y]
    rw [map_sum, Finset.sum_apply]
    refine Finset.sum_congr rfl fun j _ => ?_
    rw [hu, map_add, map_smul, map_smul, ← hR]
    show (c y j).re • B w (u j 1) o + (c y j).im • B w (R (u j 1)) o = _
    rw [hB2]
    conv_rhs => rw [← Complex.re_add_im (c y j)]
    simp only [Complex.real_smul]
    ring
  have hl1 : ∀ w y, B y w o = ∑ i, c y i * B (u i 1) w o := by
    intro w y
    rw [hsym, hl2]
    exact Finset.sum_congr rfl fun i _ => by rw [hsym]
  simp only [hg, Finset.sum_mul]
  rw [Finset.sum_congr rfl fun i _ => Finset.sum_comm, Finset.sum_comm]
  refine Finset.sum_congr rfl fun k _ => ?_
  rw [hl1]
  refine Finset.sum_congr rfl fun i _ => ?_
  rw [hl2, Finset.mul_sum]
  refine Finset.sum_congr rfl fun j _ => ?_
  ring

end generic

/-! ### The Hessian term and `wrap_general` -/

/-- Multiplication of complex arrays by `i`, on the tracked arguments. -/
noncomputable def rotSL : ∀ t : Ty, Space t →L[ℝ] Space t
  | .real _ => 0
  | .cplx n => (ContinuousLinearMap.pi fun i => (ContinuousLinearMap.mul ℝ ℂ Complex.I).comp (ContinuousLinearMap.proj i) :
      (Fin n → ℂ) →L[ℝ] (Fin n → ℂ))

theorem rotSL_eq : ∀ (t : Ty) (v : Space t), rotSL t v = rotS t v
  | .real _, _ => rfl
  | .cplx _, _ => rfl

noncomputable def rotT : ∀ vs : List (TVal κ), TList vs →L[ℝ] TList vs
  | [] => ContinuousLinearMap.id ℝ PUnit
  | .plain _ :: vs => rotT vs
  | .tracked t _ :: vs => ((rotSL t).comp (ContinuousLinearMap.fst ℝ (Space t) (TList vs))).prod
      ((rotT vs).comp (ContinuousLinearMap.snd ℝ (Space t) (TList vs)))

theorem rotSL_single (n : ℕ) (i : Fin n) : rotSL (.cplx n) (single (.cplx n) i 1) = single (.cplx n) i Complex.I := by
  funext (j : Fin n)
  show Complex.I * (if j.val = i.val then (1 : ℂ) else 0) = if j.val = i.val then Complex.I else 0
  split <;> simp

theorem rotT_unit : ∀ (vs : List (TVal κ)) (_ : ∀ a ∈ vs.map TVal.primal, Arr.isReal a = false) (i : Idx vs),
    rotT vs (unit vs i 1) = unit vs i Complex.I
  | .plain _ :: vs, h, i => rotT_unit vs (fun a ha => h a (List.mem_cons_of_mem _ ha)) i
  | .tracked (.real n) b :: vs, h, _ => by simpa [TVal.primal, Arr.isReal] using h _ List.mem_cons_self
  | .tracked (.cplx n) b :: vs, h, .inl i => Prod.ext (rotSL_single n i) (map_zero (rotT vs))
  | .tracked (.cplx n) b :: vs, h, .inr i =>
    Prod.ext (map_zero (rotSL (.cplx n))) (rotT_unit vs (fun a ha => h a (List.mem_cons_of_mem _ ha)) i)

theorem embL_rot : ∀ (vs : List (TVal κ)) (v : TList vs), embL vs (rotT vs v) = rotN (vs.map TVal.primal) (embL vs v)
  | [], _ => rfl
  | .plain (.num t a) :: vs, v => Prod.ext ((map_zero (rotSL t)).symm.trans (rotSL_eq t 0)) (embL_rot vs v)
  | .plain (.disc _ _) :: vs, v => embL_rot vs v
  | .tracked t _ :: vs, v => Prod.ext (rotSL_eq t v.1) (embL_rot vs v.2)

theorem anyComplex_false : ∀ (vs : List (TVal κ)) (_ : ∀ a ∈ vs.map TVal.primal, Arr.isCplx a = false), anyComplex vs = false
  | [], _ => rfl
  | .plain _ :: vs, h => anyComplex_false vs fun a ha => h a (List.mem_cons_of_mem _ ha)
  | .tracked (.real _) _ :: vs, h => anyComplex_false vs fun a ha => h a (List.mem_cons_of_mem _ ha)
  | .tracked (.cplx _) _ :: vs, h => by simpa [TVal.primal, Arr.isCplx] using h _ List.mem_cons_self

theorem viaTrace_eq {vs : List (TVal κ)} {t : Ty} {F : TList vs → Space t} (hF : ContDiffAt ℝ 2 F (xs vs)) :
    viaTrace vs t F = ∑ k, fderiv ℝ (fderiv ℝ F) (xs vs) (js k vs) (js k vs) :=
  Finset.sum_congr rfl fun _ _ => fderiv_dir hF _ _

theorem viaHessianReal_eq {vs : List (TVal κ)} {t : Ty} {F : TList vs → Space t} (hF : ContDiffAt ℝ 2 F (xs vs))
    (hr : anyComplex vs = false) :
    viaHessianReal vs t F = ∑ k, fderiv ℝ (fderiv ℝ F) (xs vs) (js k vs) (js k vs) := by
  unfold viaHessianReal
  simp only [fderiv_dir hF]
  refine hess_real _ (fun k => js k vs) (fun i => unit vs i 1) (fun y i => (coord vs y i).re) ?_
  intro y
  conv_lhs => rw [eq_sum_unit vs y]
  refine Finset.sum_congr rfl fun i _ => ?_
  rw [unit_eq, coord_im vs hr, zero_smul, add_zero]

theorem sum_at {n : ℕ} {X : Type} [AddCommMonoid X] (f : κ → Fin n → X) (o : Fin n) : (∑ k, f k) o = ∑ k, f k o :=
  Finset.sum_apply _ _ _

theorem viaHvp_eq {vs : List (TVal κ)} {n : ℕ} {F : TList vs → Space (.real n)} (hF : ContDiffAt ℝ 2 F (xs vs)) :
    viaHvp vs n F = ∑ k, fderiv ℝ (fderiv ℝ F) (xs vs) (js k vs) (js k vs) := by
  funext (o : Fin n)
  exact (hvp_real (n := n) hF (fun k => js k vs) (unit vs) (coord vs) (eq_sum_unit vs) (unit_eq vs) o).trans
    (sum_at (n := n) (fun k => (fderiv ℝ (fderiv ℝ F) (xs vs) (js k vs) (js k vs) : Fin n → ℝ)) o).symm

theorem viaHessianCplx_eq {vs : List (TVal κ)} {n : ℕ} {F : TList vs → Space (.cplx n)} (hF : ContDiffAt ℝ 2 F (xs vs))
    (hc : ∀ a ∈ vs.map TVal.primal, Arr.isReal a = false)
    (hCR : ∀ᶠ y in 𝓝 (xs vs), ∀ v, fderiv ℝ F y (rotT vs v) = rotS (.cplx n) (fderiv ℝ F y v)) :
    viaHessianCplx vs n F = ∑ k, fderiv ℝ (fderiv ℝ F) (xs vs) (js k vs) (js k vs) := by
  funext (o : Fin n)
  refine (hess_cplx (n := n) hF (fun k => js k vs) (unit vs) (coord vs) (eq_sum_unit vs) (unit_eq vs) (rotT vs)
    (rotT_unit vs hc) ?_ o).trans
    (sum_at (n := n) (fun k => (fderiv ℝ (fderiv ℝ F) (xs vs) (js k vs) (js k vs) : Fin n → ℂ)) o).symm
  filter_upwards [hCR] with y h v o
  exact congrFun (h v) o

theorem generalHessian_eq {vs : List (TVal κ)} {t : Ty} {F : TList vs → Space t} (hF : ContDiffAt ℝ 2 F (xs vs))
    (hc : Ty.isCplx t = true → anyComplex vs = false ∨ ((∀ a ∈ vs.map TVal.primal, Arr.isReal a = false) ∧
      ∀ᶠ y in 𝓝 (xs vs), ∀ v, fderiv ℝ F y (rotT vs v) = rotS t (fderiv ℝ F y v))) :
    generalHessian vs t F = ∑ k, fderiv ℝ (fderiv ℝ F) (xs vs) (js k vs) (js k vs) := by
  cases t with
  | real n =>
    simp only [generalHessian]
    split
    · split
      · exact viaHvp_eq hF
      · exact viaHessianReal_eq hF (by simp_all)
    · exact viaTrace_eq hF
  | cplx n =>
    simp only [generalHessian]
    split
    · split
      · rcases hc rfl with h | ⟨h1, h2⟩
        · simp_all
        · exact viaHessianCplx_eq hF h1 h2
      · exact viaHessianReal_eq hF (by simp_all)
    · exact viaTrace_eq hF

/-- `wrap_general` on smooth functions (holomorphic ones, if the result and an argument are complex). -/
theorem general_sound (bind : List Arr → Except String (List Arr)) :
    SoundFor (κ := κ) bind (wrapGeneral bind) (SmoothAt bind) := by
  intro γs vs h hok outs ho
  obtain ⟨t, F, hF, hb, hcr⟩ := hok
  obtain ⟨h0, h1, h2⟩ := merged_eventually (t := t) (F := F) hb
  unfold wrapGeneral at ho
  simp only [h0, Except.ok.injEq] at ho
  subst ho
  set G := mergedFwd bind vs t with hG
  have hFe : ContDiffAt ℝ 2 (fun y => F (emb vs y)) (xs vs) := by
    have hF' : ContDiffAt ℝ 2 F (emb vs (xs vs)) := by rw [emb_xs]; exact hF
    exact hF'.comp (xs vs) (contDiff_emb vs).contDiffAt
  have hGd : ContDiffAt ℝ 2 G (xs vs) := hFe.congr_of_eventuallyEq h2
  have hx : F (pt (vs.map TVal.primal)) = G (xs vs) := by
    rw [h2.self_of_nhds]
    show _ = F (emb vs (xs vs))
    rw [emb_xs]
  have hgh : generalHessian vs t G = ∑ k, fderiv ℝ (fderiv ℝ G) (xs vs) (js k vs) (js k vs) := by
    refine generalHessian_eq hGd fun ht => ?_
    rcases hcr ht with hc | ⟨hc, hr⟩
    · exact Or.inl (anyComplex_false vs hc)
    · refine Or.inr ⟨hc, ?_⟩
      have hdiff : ∀ᶠ y in 𝓝 (pt (vs.map TVal.primal)), DifferentiableAt ℝ F y :=
        (hF.eventually (by simp)).mono fun y hy => hy.differentiableAt (by norm_num)
      have e1 := eventually_merge (P := fun _ => True) (hr.and hdiff)
      filter_upwards [h2.eventuallyEq_nhds, e1] with y hy hy2 v
      rw [hy.fderiv_eq]
      have hc : HasFDerivAt (fun y => F (emb vs y)) ((fderiv ℝ F (emb vs y)).comp (embL vs)) y := by
        refine hy2.2.hasFDerivAt.comp y ?_
        have : emb vs = fun y => embL vs y + emb vs 0 := funext (emb_eq vs)
        rw [this]
        exact (embL vs).hasFDerivAt.add_const _
      rw [hc.fderiv, ContinuousLinearMap.comp_apply, ContinuousLinearMap.comp_apply, embL_rot, hy2.1]
  refine follows_one h t G h1 _ hx ?_
  intro g hg
  have h4 := hg.comp hGd
  show CurveLap _ (F (pt _)) (fun k => fderiv ℝ G (xs vs) (js k vs)) (fderiv ℝ G (xs vs) (ls vs) + generalHessian vs t G)
  rw [hgh, hx]
  exact h4

end Jaqmc.Laplacian
