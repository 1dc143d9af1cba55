import Verif.Lemmas.LaplacianCplx
import Mathlib.LinearAlgebra.Matrix.Adjugate
import Mathlib.LinearAlgebra.Matrix.NonsingularInverse
import Mathlib.Analysis.Calculus.Deriv.Mul
import Mathlib.Analysis.Calculus.Deriv.Inv
import Mathlib.Analysis.SpecialFunctions.Complex.LogDeriv
/-! Proof of C44 for `slogdet`: Jacobi's formula along a curve, and its derivative. -/
namespace Jaqmc.Laplacian
open Spec Filter Topology Matrix

section jacobi
variable {𝕜 : Type} [RCLike 𝕜] {n : ℕ}

theorem hasDerivAt_det {g : ℝ → Matrix (Fin n) (Fin n) 𝕜} {G : Matrix (Fin n) (Fin n) 𝕜} {t : ℝ}
    (h : ∀ i j, HasDerivAt (fun s => g s i j) (G i j) t) :
    HasDerivAt (fun s => (g s).det) ((g t).adjugate * G).trace t := by
  have h1 : HasDerivAt (fun s => (g s).det)
      (∑ σ : Equiv.Perm (Fin n), Equiv.Perm.sign σ • ∑ i, (∏ j ∈ Finset.univ.erase i, g t (σ j) j) • G (σ i) i) t := by
    simp only [det_apply]
    refine HasDerivAt.fun_sum fun σ _ => ?_
    have := HasDerivAt.fun_finsetProd (u := Finset.univ) (f := fun (i : Fin n) s => g s (σ i) i) (f' := fun i => G (σ i) i)
      (x := t) fun i _ => h (σ i) i
    rcases Int.units_eq_one_or (Equiv.Perm.sign σ) with e | e
    · simp only [e, one_smul]
      exact this
    · simp only [e, Units.neg_smul, one_smul]
      exact this.fun_neg
  convert h1 using 1
  simp only [trace, diag_apply]
  have h2 : ∀ i, ((g t).adjugate * G) i i = ((g t).updateCol i fun r => G r i).det := by
    intro i
    rw [← cramer_apply, cramer_eq_adjugate_mulVec]
    rfl
  simp only [h2, det_apply, Finset.smul_sum]
  rw [Finset.sum_comm]
  refine Finset.sum_congr rfl fun σ _ => Finset.sum_congr rfl fun i _ => ?_
  congr 1
  rw [← Finset.prod_erase_mul _ _ (Finset.mem_univ i), updateCol_self, smul_eq_mul]
  congr 1
  refine Finset.prod_congr rfl fun j hj => ?_
  rw [updateCol_ne (Finset.ne_of_mem_erase hj)]

theorem hasDerivAt_inv {g : ℝ → Matrix (Fin n) (Fin n) 𝕜} {G : Matrix (Fin n) (Fin n) 𝕜} {t : ℝ}
    (h : ∀ i j, HasDerivAt (fun s => g s i j) (G i j) t) (hd : (g t).det ≠ 0) (i j : Fin n) :
    HasDerivAt (fun s => (g s)⁻¹ i j) ((-((g t)⁻¹ * G * (g t)⁻¹)) i j) t := by
  have hadj : ∀ i j, ∃ B, HasDerivAt (fun s => (g s).adjugate i j) B t := by
    intro i j
    simp only [adjugate_apply]
    refine ⟨_, hasDerivAt_det (G := (G.updateRow j 0)) fun a b => ?_⟩
    by_cases ha : a = j
    · subst ha
      simp only [updateRow_self]
      exact hasDerivAt_const _ _
    · simp only [updateRow_ne ha]
      exact h a b
  have hinv : ∀ i j, ∃ B, HasDerivAt (fun s => (g s)⁻¹ i j) B t := by
    intro i j
    obtain ⟨B, hB⟩ := hadj i j
    simp only [inv_def, Ring.inverse_eq_inv', Matrix.smul_apply, smul_eq_mul]
    exact ⟨_, ((hasDerivAt_det h).fun_inv hd).fun_mul hB⟩
  choose B hB using hinv
  have hne : ∀ᶠ s in 𝓝 t, (g s).det ≠ 0 := (hasDerivAt_det h).continuousAt.eventually_ne hd
  have key : G * (g t)⁻¹ + g t * of B = 0 := by
    ext a b
    have h1 : HasDerivAt (fun s => (g s * (g s)⁻¹) a b) ((G * (g t)⁻¹ + g t * of B) a b) t := by
      simp only [mul_apply, Matrix.add_apply, ← Finset.sum_add_distrib]
      exact HasDerivAt.fun_sum fun c _ => (h a c).fun_mul (hB c b)
    have h2 : (fun s => (g s * (g s)⁻¹) a b) =ᶠ[𝓝 t] fun _ => (1 : Matrix (Fin n) (Fin n) 𝕜) a b := by
      filter_upwards [hne] with s hs
      rw [mul_nonsing_inv _ (isUnit_iff_ne_zero.2 hs)]
    exact (h1.congr_of_eventuallyEq h2.symm).unique (hasDerivAt_const _ _)
  have hBe : of B = -((g t)⁻¹ * G * (g t)⁻¹) := by
    have h3 : (g t)⁻¹ * (g t * of B) = (g t)⁻¹ * (-(G * (g t)⁻¹)) := by rw [eq_neg_of_add_eq_zero_right key]
    rw [← Matrix.mul_assoc, nonsing_inv_mul _ (isUnit_iff_ne_zero.2 hd), Matrix.one_mul] at h3
    rw [h3, Matrix.mul_neg, Matrix.mul_assoc]
  rw [← hBe]
  exact hB i j

/-- The logarithmic derivative of the determinant along a curve of matrices, and its derivative. -/
theorem jet_det {g : ℝ → Matrix (Fin n) (Fin n) 𝕜} {A B C : Matrix (Fin n) (Fin n) 𝕜}
    (h : ∀ i j, Jet2 (fun t => g t i j) (A i j) (B i j) (C i j)) (hd : A.det ≠ 0) :
    g 0 = A ∧ ∃ l : ℝ → 𝕜, (∀ᶠ t in 𝓝 0, (g t).det ≠ 0 ∧ HasDerivAt (fun s => (g s).det) ((g t).det * l t) t) ∧
      l 0 = (A⁻¹ * B).trace ∧ HasDerivAt l ((A⁻¹ * C).trace - (A⁻¹ * B * (A⁻¹ * B)).trace) 0 := by
  have h0 : g 0 = A := by ext i j; exact (h i j).1
  refine ⟨h0, ?_⟩
  choose _ G hG hG0 hGC using h
  let G' : ℝ → Matrix (Fin n) (Fin n) 𝕜 := fun t => of fun i j => G i j t
  have hall : ∀ᶠ t in 𝓝 0, ∀ i j, HasDerivAt (fun s => g s i j) (G' t i j) t :=
    eventually_all.2 fun i => eventually_all.2 fun j => hG i j
  have hB : G' 0 = B := by ext i j; exact hG0 i j
  have hd0 : (g 0).det ≠ 0 := by rw [h0]; exact hd
  have hne : ∀ᶠ s in 𝓝 0, (g s).det ≠ 0 := (hasDerivAt_det hall.self_of_nhds).continuousAt.eventually_ne hd0
  refine ⟨fun t => ((g t)⁻¹ * G' t).trace, ?_, by simp only [h0, hB], ?_⟩
  · filter_upwards [hall, hne] with t ht hn
    refine ⟨hn, ?_⟩
    convert hasDerivAt_det ht using 1
    rw [inv_def, Ring.inverse_eq_inv', Matrix.smul_mul, trace_smul, smul_eq_mul, mul_inv_cancel_left₀ hn]
  · have h1 : HasDerivAt (fun t => ((g t)⁻¹ * G' t).trace)
        ((-((g 0)⁻¹ * G' 0 * (g 0)⁻¹)) * G' 0 + (g 0)⁻¹ * C).trace 0 := by
      have h2 : HasDerivAt (fun t => ∑ i, ∑ j, (g t)⁻¹ i j * G' t j i)
          (∑ i, ∑ j, ((-((g 0)⁻¹ * G' 0 * (g 0)⁻¹)) i j * G' 0 j i + (g 0)⁻¹ i j * C j i)) 0 :=
        HasDerivAt.fun_sum fun i _ => HasDerivAt.fun_sum fun j _ =>
          (hasDerivAt_inv hall.self_of_nhds hd0 i j).fun_mul (hGC j i)
      refine h2.congr_deriv ?_
      rw [trace_add]
      simp only [Finset.sum_add_distrib]
      rfl
    convert h1 using 1
    rw [h0, hB, trace_add, Matrix.neg_mul, trace_neg, Matrix.mul_assoc (A⁻¹ * B)]
    ring

end jacobi

/-! ### Logarithm of the modulus and phase of a curve, given its logarithmic derivative -/

theorem hasDerivAt_logReal {w : ℝ → ℝ} {l t : ℝ} (hn : w t ≠ 0) (h : HasDerivAt w (w t * l) t) :
    HasDerivAt (fun s => Real.log |w s|) l t := by
  simp only [Real.log_abs]
  convert h.log hn using 1
  rw [mul_div_cancel_left₀ _ hn]

theorem hasDerivAt_logCplx {w : ℝ → ℂ} {l : ℂ} {t : ℝ} (hn : w t ≠ 0) (h : HasDerivAt w (w t * l) t) :
    HasDerivAt (fun s => Real.log ‖w s‖) l.re t := by
  have h1 : HasDerivAt (fun s => w s / w t) (w t * l / w t) t := h.div_const _
  have h2 : HasDerivAt (fun s => Complex.log (w s / w t)) ((w t * l / w t) / (w t / w t)) t :=
    h1.clog_real (by rw [div_self hn]; exact Complex.one_mem_slitPlane)
  rw [div_self hn, div_one, mul_div_cancel_left₀ _ hn] at h2
  have h3 := (Complex.reCLM.hasFDerivAt.comp_hasDerivAt t h2).const_add (Real.log ‖w t‖)
  refine h3.congr_of_eventuallyEq ?_
  filter_upwards [h.continuousAt.eventually_ne hn] with s hs
  show _ = Real.log ‖w t‖ + (Complex.log (w s / w t)).re
  rw [Complex.log_re, norm_div, Real.log_div (norm_ne_zero_iff.2 hs) (norm_ne_zero_iff.2 hn)]
  ring

theorem hasDerivAt_phase {w : ℝ → ℂ} {l : ℂ} {t : ℝ} (hn : w t ≠ 0) (h : HasDerivAt w (w t * l) t) :
    HasDerivAt (fun s => w s / (‖w s‖ : ℝ)) (w t / (‖w t‖ : ℝ) * (Complex.I * (l.im : ℝ))) t := by
  have h1 := (hasDerivAt_logCplx hn h).fun_neg.exp
  have h2 := h.mul h1.ofReal_comp
  have he : ∀ z : ℂ, z ≠ 0 → z / (‖z‖ : ℝ) = z * (Real.exp (-Real.log ‖z‖) : ℝ) := fun z hz => by
    rw [Real.exp_neg, Real.exp_log (norm_pos_iff.2 hz), Complex.ofReal_inv, div_eq_mul_inv]
  have h3 := h2.congr_of_eventuallyEq (f₁ := fun s => w s / (‖w s‖ : ℝ)) (by
    filter_upwards [h.continuousAt.eventually_ne hn] with s hs
    exact he _ hs)
  refine h3.congr_deriv ?_
  rw [he _ hn]
  have hl := Complex.re_add_im l
  push_cast
  linear_combination (-(w t * Complex.exp (-(Real.log ‖w t‖ : ℝ)))) * hl

/-! ### Bundles of curves -/

variable {κ : Type} [Fintype κ]

/-- The bundle of matrix curves given by its entries. -/
theorem curve_det {𝕜 : Type} [RCLike 𝕜] {n : ℕ} {g : κ → ℝ → Matrix (Fin n) (Fin n) 𝕜} {A L : Matrix (Fin n) (Fin n) 𝕜}
    {J : κ → Matrix (Fin n) (Fin n) 𝕜}
    (h : ∀ i j, CurveLap (fun k t => g k t i j) (A i j) (fun k => J k i j) (L i j)) (hd : A.det ≠ 0) :
    ∃ (l : κ → ℝ → 𝕜) (c : κ → 𝕜), (∀ k, g k 0 = A ∧
      (∀ᶠ t in 𝓝 0, (g k t).det ≠ 0 ∧ HasDerivAt (fun s => (g k s).det) ((g k t).det * l k t) t) ∧
      l k 0 = slogJac A (J k) ∧ HasDerivAt (l k) (c k) 0) ∧ ∑ k, c k = slogJac A L + slogHess A J := by
  choose C hC hL using h
  have hjet : ∀ k, _ := fun k => jet_det (g := g k) (A := A) (B := J k) (C := of fun i j => C i j k) (fun i j => hC i j k) hd
  choose h0 l h1 h2 h3 using hjet
  refine ⟨l, _, fun k => ⟨h0 k, h1 k, h2 k, h3 k⟩, ?_⟩
  rw [Finset.sum_sub_distrib, sub_eq_add_neg]
  congr 1
  · rw [slogJac, ← trace_sum, ← Matrix.mul_sum]
    congr 2
    ext i j
    rw [Matrix.sum_apply, hL i j]
    rfl

theorem curve_logdetReal {n : ℕ} {g : κ → ℝ → Matrix (Fin n) (Fin n) ℝ} {A L : Matrix (Fin n) (Fin n) ℝ}
    {J : κ → Matrix (Fin n) (Fin n) ℝ}
    (h : ∀ i j, CurveLap (fun k t => g k t i j) (A i j) (fun k => J k i j) (L i j)) (hd : A.det ≠ 0) :
    CurveLap (fun k t => Real.log |(g k t).det|) (Real.log |A.det|) (fun k => slogJac A (J k)) (slogJac A L + slogHess A J) := by
  obtain ⟨l, c, h1, h2⟩ := curve_det h hd
  refine ⟨c, fun k => ?_, h2.symm⟩
  obtain ⟨e0, e1, e2, e3⟩ := h1 k
  refine ⟨by simp only [e0], l k, e1.mono fun t ht => hasDerivAt_logReal ht.1 ht.2, e2, e3⟩

theorem sign_curve {n : ℕ} {g : κ → ℝ → Matrix (Fin n) (Fin n) ℝ} {A L : Matrix (Fin n) (Fin n) ℝ}
    {J : κ → Matrix (Fin n) (Fin n) ℝ}
    (h : ∀ i j, CurveLap (fun k t => g k t i j) (A i j) (fun k => J k i j) (L i j)) (hd : A.det ≠ 0) (k : κ) :
    ∀ᶠ t in 𝓝 0, SignType.sign (g k t).det = SignType.sign A.det := by
  obtain ⟨l, c, h1, h2⟩ := curve_det h hd
  obtain ⟨e0, e1, -⟩ := h1 k
  have hc := e1.self_of_nhds.2.continuousAt.tendsto
  simp only [e0] at hc
  rcases lt_or_gt_of_ne hd with hs | hs
  · filter_upwards [hc.eventually (gt_mem_nhds hs)] with t ht
    rw [sign_neg ht, sign_neg hs]
  · filter_upwards [hc.eventually (lt_mem_nhds hs)] with t ht
    rw [sign_pos ht, sign_pos hs]

theorem curve_logdetCplx {n : ℕ} {g : κ → ℝ → Matrix (Fin n) (Fin n) ℂ} {A L : Matrix (Fin n) (Fin n) ℂ}
    {J : κ → Matrix (Fin n) (Fin n) ℂ}
    (h : ∀ i j, CurveLap (fun k t => g k t i j) (A i j) (fun k => J k i j) (L i j)) (hd : A.det ≠ 0) :
    CurveLap (fun k t => Real.log ‖(g k t).det‖) (Real.log ‖A.det‖) (fun k => (slogJac A (J k)).re)
      ((slogJac A L).re + (slogHess A J).re) := by
  obtain ⟨l, c, h1, h2⟩ := curve_det h hd
  refine ⟨fun k => (c k).re, fun k => ?_, ?_⟩
  · obtain ⟨e0, e1, e2, e3⟩ := h1 k
    refine ⟨by simp only [e0], fun t => (l k t).re, e1.mono fun t ht => hasDerivAt_logCplx ht.1 ht.2, by simp only [e2], ?_⟩
    exact Complex.reCLM.hasFDerivAt.comp_hasDerivAt 0 e3
  · rw [← Complex.add_re, ← h2, Complex.re_sum]

theorem curve_phase {n : ℕ} {g : κ → ℝ → Matrix (Fin n) (Fin n) ℂ} {A L : Matrix (Fin n) (Fin n) ℂ}
    {J : κ → Matrix (Fin n) (Fin n) ℂ}
    (h : ∀ i j, CurveLap (fun k t => g k t i j) (A i j) (fun k => J k i j) (L i j)) (hd : A.det ≠ 0) :
    CurveLap (fun k t => (g k t).det / (‖(g k t).det‖ : ℝ)) (A.det / (‖A.det‖ : ℝ))
      (fun k => Complex.I * (A.det / (‖A.det‖ : ℝ)) * ((slogJac A (J k)).im : ℝ))
      (A.det / (‖A.det‖ : ℝ) * (Complex.I * (((slogJac A L).im + (slogHess A J).im : ℝ) : ℂ) -
        ((∑ k, (slogJac A (J k)).im * (slogJac A (J k)).im : ℝ) : ℂ))) := by
  obtain ⟨l, c, h1, h2⟩ := curve_det h hd
  refine ⟨fun k => A.det / (‖A.det‖ : ℝ) * (Complex.I * ((c k).im : ℝ) - ((slogJac A (J k)).im * (slogJac A (J k)).im : ℝ)),
    fun k => ?_, ?_⟩
  · obtain ⟨e0, e1, e2, e3⟩ := h1 k
    refine ⟨by simp only [e0], fun t => (g k t).det / (‖(g k t).det‖ : ℝ) * (Complex.I * ((l k t).im : ℝ)),
      e1.mono fun t ht => hasDerivAt_phase ht.1 ht.2, by simp only [e0, e2]; ring, ?_⟩
    have hi : HasDerivAt (fun t => (((l k t).im : ℝ) : ℂ)) (((c k).im : ℝ) : ℂ) 0 :=
      (Complex.imCLM.hasFDerivAt.comp_hasDerivAt 0 e3).ofReal_comp
    have hp := (hasDerivAt_phase e1.self_of_nhds.1 e1.self_of_nhds.2).fun_mul (hi.const_mul Complex.I)
    refine hp.congr_deriv ?_
    rw [e0, e2]
    push_cast
    linear_combination (A.det / (‖A.det‖ : ℝ) * ((slogJac A (J k)).im : ℝ) * ((slogJac A (J k)).im : ℝ)) * Complex.I_mul_I
  · rw [← Finset.mul_sum, Finset.sum_sub_distrib, ← Finset.mul_sum, ← Complex.ofReal_sum, ← Complex.ofReal_sum, ← Complex.im_sum,
      h2, Complex.add_im]

/-- No matrix of the batch is singular. -/
def okSlogdet (b n : ℕ) : List Arr → Prop
  | [.num (.real m) v] => ∀ v', fit (n := m) (b * (n * n)) v = some v' → ∀ β, (toMat v' β).det ≠ 0
  | [.num (.cplx m) v] => ∀ v', fit (n := m) (b * (n * n)) v = some v' → ∀ β, (toMat v' β).det ≠ 0
  | _ => True

theorem fit_self {X : Type} {n : ℕ} (v : Fin n → X) : fit n v = some v := by simp [fit]

theorem slogdetBind_real {b n : ℕ} (v : Fin (b * (n * n)) → ℝ) :
    slogdetBind b n [.num (.real (b * (n * n))) v] = .ok (slogdetReal v) := by
  simp only [slogdetBind, fit, dite_true]
  rfl

theorem slogdetBind_cplx {b n : ℕ} (v : Fin (b * (n * n)) → ℂ) :
    slogdetBind b n [.num (.cplx (b * (n * n))) v] = .ok (slogdetCplx v) := by
  simp only [slogdetBind, fit, dite_true]
  rfl

theorem slogdet_sound (b n : ℕ) : SoundFor (κ := κ) (slogdetBind b n) (slogdetRule b n) (okSlogdet b n) := by
  intro γs vs hd hok outs ho
  match γs, vs, hd with
  | [γ], [.tracked (.real m) a], .cons ⟨g, h1, h2⟩ .nil =>
    simp only [slogdetRule] at ho
    cases hf : fitLap (n := m) (b * (n * n)) a with
    | none => simp only [hf] at ho; cases ho
    | some a' =>
      simp only [hf, Except.ok.injEq] at ho
      obtain ⟨rfl, he⟩ := fitLap_some hf
      have he' := eq_of_heq he
      subst he'
      subst ho
      have hdet : ∀ β, (toMat (b := b) (n := n) a.x β).det ≠ 0 := hok a.x (fit_self _)
      have hent : ∀ β i j, CurveLap (fun k t => toMat (b := b) (n := n) (g k t) β i j) (toMat (b := b) (n := n) a.x β i j)
          (fun k => toMat (b := b) (n := n) (a.jac k) β i j) (toMat (b := b) (n := n) a.lap β i j) := fun β i j =>
        Spec.CurveLap.apply (ι := Fin (b * (n * n))) h2 _
      refine ⟨?_, [fun _ _ => .num (.real b) fun β : Fin b => (SignType.sign (toMat (b := b) (n := n) a.x β).det : ℝ),
        fun k s => .num (.real b) fun β : Fin b => Real.log |(toMat (b := b) (n := n) (g k s) β).det|], ?_, fun k => ?_⟩
      · exact slogdetBind_real (b := b) (n := n) a.x
      · refine .cons (fun k => Eventually.of_forall fun s => rfl) (.cons ⟨_, fun k => Eventually.of_forall fun s => rfl, ?_⟩ .nil)
        exact CurveLap.pi (ι := Fin b) fun β => curve_logdetReal (hent β) (hdet β)
      · have hs : ∀ᶠ t in 𝓝 (0 : ℝ), ∀ β : Fin b, SignType.sign (toMat (b := b) (n := n) (g k t) β).det =
            SignType.sign (toMat (b := b) (n := n) a.x β).det :=
          eventually_all.2 fun β => sign_curve (hent β) (hdet β) k
        filter_upwards [h1 k, hs] with t e1 e2
        simp only [List.map_cons, List.map_nil, e1]
        refine (slogdetBind_real (b := b) (n := n) (g k t)).trans ?_
        simp only [slogdetReal, e2]
  | [γ], [.tracked (.cplx m) a], .cons ⟨g, h1, h2⟩ .nil =>
    simp only [slogdetRule] at ho
    cases hf : fitLap (n := m) (b * (n * n)) a with
    | none => simp only [hf] at ho; cases ho
    | some a' =>
      simp only [hf, Except.ok.injEq] at ho
      obtain ⟨rfl, he⟩ := fitLap_some hf
      have he' := eq_of_heq he
      subst he'
      subst ho
      have hdet : ∀ β, (toMat (b := b) (n := n) a.x β).det ≠ 0 := hok a.x (fit_self _)
      have hent : ∀ β i j, CurveLap (fun k t => toMat (b := b) (n := n) (g k t) β i j) (toMat (b := b) (n := n) a.x β i j)
          (fun k => toMat (b := b) (n := n) (a.jac k) β i j) (toMat (b := b) (n := n) a.lap β i j) := fun β i j =>
        Spec.CurveLap.apply (ι := Fin (b * (n * n))) h2 _
      refine ⟨?_, [fun k s => .num (.cplx b) fun β : Fin b => (toMat (b := b) (n := n) (g k s) β).det /
          (‖(toMat (b := b) (n := n) (g k s) β).det‖ : ℝ),
        fun k s => .num (.real b) fun β : Fin b => Real.log ‖(toMat (b := b) (n := n) (g k s) β).det‖], ?_, fun k => ?_⟩
      · exact slogdetBind_cplx (b := b) (n := n) a.x
      · refine .cons ⟨_, fun k => Eventually.of_forall fun s => rfl, ?_⟩ (.cons ⟨_, fun k => Eventually.of_forall fun s => rfl, ?_⟩ .nil)
        · exact CurveLap.pi (ι := Fin b) fun β => curve_phase (hent β) (hdet β)
        · exact CurveLap.pi (ι := Fin b) fun β => curve_logdetCplx (hent β) (hdet β)
      · filter_upwards [h1 k] with t e1
        simp only [List.map_cons, List.map_nil, e1]
        exact slogdetBind_cplx (b := b) (n := n) (g k t)
  | _, [.plain a], _ => simp [slogdetRule] at ho
  | _, [], _ => simp [slogdetRule] at ho
  | _, _ :: _ :: _, _ => simp [slogdetRule] at ho

end Jaqmc.Laplacian
