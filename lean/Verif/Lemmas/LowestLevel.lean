import Verif.Props.SphereAngular
/-! The lowest Landau level: energy and angular momentum of polynomials in `u`, `v` (C69, C70). -/
namespace Jaqmc.Kinetic.Props
open Filter Topology Spec Laplacian.Spec Hall
open scoped BigOperators ContDiff

variable {n : ℕ}

/-! ### Energy -/

/-- A monomial of degree `a + b` in `u` and `v`. -/
noncomputable def mono (a b : ℕ) (e : Angles) : ℂ := uOf e ^ a * vOf e ^ b

theorem sin_half (θ : ℝ) : Real.sin θ = 2 * Real.sin (θ / 2) * Real.cos (θ / 2) := by
  have := Real.sin_two_mul (θ / 2)
  rwa [show 2 * (θ / 2) = θ by ring] at this

theorem cos_half (θ : ℝ) : Real.cos θ = Real.cos (θ / 2) ^ 2 - Real.sin (θ / 2) ^ 2 := by
  have := Real.cos_two_mul' (θ / 2)
  rwa [show 2 * (θ / 2) = θ by ring] at this

theorem hasDerivAt_u_theta (θ φ : ℝ) :
    HasDerivAt (fun t => uOf (t, φ)) (-(1 / 2) * (Real.sin (θ / 2) : ℂ) * Complex.exp (0.5 * Complex.I * φ)) θ := by
  have h1 : HasDerivAt (fun t : ℝ => Real.cos (t / 2)) (-Real.sin (θ / 2) * (1 / 2)) θ :=
    HasDerivAt.comp (h₂ := Real.cos) θ (Real.hasDerivAt_cos (θ / 2)) ((hasDerivAt_id' θ).div_const 2)
  have h2 := (HasDerivAt.ofReal_comp h1).mul_const (Complex.exp (0.5 * Complex.I * φ))
  refine h2.congr_deriv ?_
  push_cast
  ring

theorem hasDerivAt_v_theta (θ φ : ℝ) :
    HasDerivAt (fun t => vOf (t, φ)) ((1 / 2) * (Real.cos (θ / 2) : ℂ) * Complex.exp (-0.5 * Complex.I * φ)) θ := by
  have h1 : HasDerivAt (fun t : ℝ => Real.sin (t / 2)) (Real.cos (θ / 2) * (1 / 2)) θ :=
    HasDerivAt.comp (h₂ := Real.sin) θ (Real.hasDerivAt_sin (θ / 2)) ((hasDerivAt_id' θ).div_const 2)
  have h2 := (HasDerivAt.ofReal_comp h1).mul_const (Complex.exp (-0.5 * Complex.I * φ))
  refine h2.congr_deriv ?_
  push_cast
  ring

theorem hasDerivAt_expI (c : ℂ) (φ : ℝ) : HasDerivAt (fun t : ℝ => Complex.exp (c * t)) (c * Complex.exp (c * φ)) φ := by
  have h := ((hasDerivAt_id φ).ofReal_comp.const_mul c).cexp
  refine h.congr_deriv ?_
  simp
  ring

theorem hasDerivAt_u_phi (θ φ : ℝ) : HasDerivAt (fun t => uOf (θ, t)) (Complex.I / 2 * uOf (θ, φ)) φ := by
  refine ((hasDerivAt_expI (0.5 * Complex.I) φ).const_mul (Real.cos (θ / 2) : ℂ)).congr_deriv ?_
  unfold uOf
  norm_num
  ring

theorem hasDerivAt_v_phi (θ φ : ℝ) : HasDerivAt (fun t => vOf (θ, t)) (-(Complex.I / 2) * vOf (θ, φ)) φ := by
  refine ((hasDerivAt_expI (-0.5 * Complex.I) φ).const_mul (Real.sin (θ / 2) : ℂ)).congr_deriv ?_
  unfold vOf
  norm_num
  ring

theorem pow_pred (a : ℕ) (z w : ℂ) : (a : ℂ) * z ^ (a - 1) * w * z = a * z ^ a * w := by
  cases a with
  | zero => simp
  | succ a => rw [Nat.add_sub_cancel, pow_succ]; ring

/-- `sin θ ∂θ` multiplies a monomial by `Q cos θ - m`, with `2Q = a + b` and `2m = a - b`. -/
theorem mono_theta (a b : ℕ) (θ φ : ℝ) (h : Real.sin θ ≠ 0) :
    HasDerivAt (fun t => mono a b (t, φ)) ((((a + b : ℝ) / 2 * Real.cos θ - (a - b : ℝ) / 2 : ℝ) : ℂ) / Real.sin θ * mono a b (θ, φ)) θ := by
  refine (((hasDerivAt_u_theta θ φ).pow a).mul ((hasDerivAt_v_theta θ φ).pow b)).congr_deriv ?_
  have hs2 := Real.sin_sq_add_cos_sq (θ / 2)
  have hsin := sin_half θ
  have hcos := cos_half θ
  have hs' : (Real.sin θ : ℂ) ≠ 0 := by exact_mod_cast h
  refine Eq.trans ?_ (div_mul_eq_mul_div _ _ _).symm
  rw [eq_div_iff hs', hsin, hcos]
  have pa := pow_pred a (uOf (θ, φ)) ((Real.sin (θ / 2) : ℂ) ^ 2)
  have pb := pow_pred b (vOf (θ, φ)) ((Real.cos (θ / 2) : ℂ) ^ 2)
  have eu : uOf (θ, φ) = (Real.cos (θ / 2) : ℂ) * Complex.exp (0.5 * Complex.I * φ) := rfl
  have ev : vOf (θ, φ) = (Real.sin (θ / 2) : ℂ) * Complex.exp (-0.5 * Complex.I * φ) := rfl
  have key : ((a + b : ℝ) / 2 * (Real.cos (θ / 2) ^ 2 - Real.sin (θ / 2) ^ 2) - (a - b : ℝ) / 2 : ℝ)
      = b * Real.cos (θ / 2) ^ 2 - a * Real.sin (θ / 2) ^ 2 := by
    linear_combination ((a - b : ℝ) / 2) * hs2
  rw [key]
  unfold mono
  simp only [Pi.pow_apply]
  rw [show ((b * Real.cos (θ / 2) ^ 2 - a * Real.sin (θ / 2) ^ 2 : ℝ) : ℂ) * (uOf (θ, φ) ^ a * vOf (θ, φ) ^ b)
      = uOf (θ, φ) ^ a * (b * vOf (θ, φ) ^ b * (Real.cos (θ / 2) : ℂ) ^ 2) - (a * uOf (θ, φ) ^ a * (Real.sin (θ / 2) : ℂ) ^ 2) * vOf (θ, φ) ^ b by
        push_cast; ring, ← pa, ← pb]
  generalize uOf (θ, φ) ^ a = A at *
  generalize vOf (θ, φ) ^ b = B at *
  rw [eu, ev]
  push_cast
  ring

theorem mono_phi (a b : ℕ) (θ φ : ℝ) : HasDerivAt (fun t => mono a b (θ, t)) (Complex.I * ((a - b : ℝ) / 2 : ℝ) * mono a b (θ, φ)) φ := by
  refine (((hasDerivAt_u_phi θ φ).pow a).mul ((hasDerivAt_v_phi θ φ).pow b)).congr_deriv ?_
  have pa := pow_pred a (uOf (θ, φ)) (Complex.I / 2)
  have pb := pow_pred b (vOf (θ, φ)) (Complex.I / 2)
  unfold mono
  simp only [Pi.pow_apply]
  push_cast
  linear_combination (vOf (θ, φ) ^ b) * pa - (uOf (θ, φ) ^ a) * pb

/-- `g` is a polynomial in `(u, v)`, homogeneous of degree `N`. -/
structure Homog (N : ℕ) (g : Angles → ℂ) where
  ι : Type
  S : Finset ι
  c : ι → ℂ
  a : ι → ℕ
  b : ι → ℕ
  deg : ∀ s ∈ S, a s + b s = N
  eq : ∀ e, g e = ∑ s ∈ S, c s * mono (a s) (b s) e

namespace Homog
variable {N : ℕ} {g : Angles → ℂ} (H : Homog N g)

/-- Twice the quantum number `m` of a monomial. -/
def m2 (s : H.ι) : ℝ := 2 * H.a s - N

theorem cast {s : H.ι} (hs : s ∈ H.S) : (H.a s : ℝ) + H.b s = N ∧ (H.a s : ℝ) - H.b s = H.m2 s := by
  have := H.deg s hs
  have h : (H.a s : ℝ) + H.b s = N := by exact_mod_cast this
  exact ⟨h, by unfold m2; linarith⟩

theorem theta (θ φ : ℝ) (h : Real.sin θ ≠ 0) :
    HasDerivAt (fun t => g (t, φ)) (∑ s ∈ H.S, H.c s * ((((N : ℝ) / 2 * Real.cos θ - H.m2 s / 2 : ℝ) : ℂ) / Real.sin θ * mono (H.a s) (H.b s) (θ, φ))) θ := by
  simp only [H.eq]
  refine (HasDerivAt.fun_sum fun s _ => (mono_theta (H.a s) (H.b s) θ φ h).const_mul (H.c s)).congr_deriv ?_
  refine Finset.sum_congr rfl fun s hs => ?_
  rw [(H.cast hs).1, (H.cast hs).2]

theorem phi (θ φ : ℝ) :
    HasDerivAt (fun t => g (θ, t)) (∑ s ∈ H.S, H.c s * (Complex.I * (H.m2 s / 2 : ℝ) * mono (H.a s) (H.b s) (θ, φ))) φ := by
  simp only [H.eq]
  refine (HasDerivAt.fun_sum fun s _ => (mono_phi (H.a s) (H.b s) θ φ).const_mul (H.c s)).congr_deriv ?_
  refine Finset.sum_congr rfl fun s hs => ?_
  rw [(H.cast hs).2]

/-- Constants. -/
def const (z : ℂ) : Homog 0 (fun _ => z) where
  ι := Unit
  S := Finset.univ
  c _ := z
  a _ := 0
  b _ := 0
  deg _ _ := rfl
  eq e := by simp [mono]

/-- `z u + w v`. -/
def linear (z w : ℂ) : Homog 1 (fun e => z * uOf e + w * vOf e) where
  ι := Fin 2
  S := Finset.univ
  c := ![z, w]
  a := ![1, 0]
  b := ![0, 1]
  deg s _ := by fin_cases s <;> rfl
  eq e := by simp [mono, Fin.sum_univ_two]

/-- Products. -/
def mul {M : ℕ} {k : Angles → ℂ} (H : Homog N g) (K : Homog M k) : Homog (N + M) (fun e => g e * k e) where
  ι := H.ι × K.ι
  S := H.S ×ˢ K.S
  c s := H.c s.1 * K.c s.2
  a s := H.a s.1 + K.a s.2
  b s := H.b s.1 + K.b s.2
  deg s hs := by
    have h := Finset.mem_product.1 hs
    have h1 := H.deg _ h.1
    have h2 := K.deg _ h.2
    omega
  eq e := by
    rw [H.eq, K.eq, Finset.sum_mul_sum, Finset.sum_product]
    refine Finset.sum_congr rfl fun s _ => Finset.sum_congr rfl fun t _ => ?_
    unfold mono
    rw [pow_add, pow_add]
    ring

/-- Rewriting. -/
def congr {k : Angles → ℂ} {M : ℕ} (H : Homog N g) (h : ∀ e, k e = g e) (hN : N = M) : Homog M k where
  ι := H.ι
  S := H.S
  c := H.c
  a := H.a
  b := H.b
  deg s hs := by rw [← hN]; exact H.deg s hs
  eq e := by rw [h, H.eq]

theorem prod {κ : Type} (T : Finset κ) (d : κ → ℕ) (k : κ → Angles → ℂ) (K : ∀ s ∈ T, Nonempty (Homog (d s) (k s))) :
    Nonempty (Homog (∑ s ∈ T, d s) (fun e => ∏ s ∈ T, k s e)) := by
  classical
  induction T using Finset.induction_on with
  | empty => exact ⟨(const 1).congr (fun e => by simp) (by simp)⟩
  | insert s T hs ih =>
    obtain ⟨A⟩ := K s (Finset.mem_insert_self _ _)
    obtain ⟨B⟩ := ih fun t ht => K t (Finset.mem_insert_of_mem ht)
    exact ⟨(A.mul B).congr (fun e => by rw [Finset.prod_insert hs]) (by rw [Finset.sum_insert hs])⟩

/-- The usual form: coefficients of `u^t v^(N - t)`. -/
noncomputable def ofRange (N : ℕ) (c : ℕ → ℂ) (h : ∀ e, g e = ∑ t ∈ Finset.range (N + 1), c t * (uOf e ^ t * vOf e ^ (N - t))) : Homog N g where
  ι := ℕ
  S := Finset.range (N + 1)
  c := c
  a t := t
  b t := N - t
  deg t ht := by have := Finset.mem_range.1 ht; omega
  eq e := h e

end Homog

/-- `Λ² ψ = Q ψ` for a function that is such a polynomial in electron `i`. -/
theorem lambdaSq_poly {N : ℕ} (F : Conf n → ℂ) (x : Conf n) (i : Fin n) (hs : Real.sin (x i).1 ≠ 0)
    (H : Homog N fun e => F (Function.update x i e)) : lambdaSq ((N : ℝ) / 2) i F x = ((N : ℝ) / 2 : ℝ) * F x := by
  have hs' : (Real.sin (x i).1 : ℂ) ≠ 0 := by exact_mod_cast hs
  set B : Angles → ℂ := fun e => ∑ t ∈ H.S, H.c t * ((((N : ℝ) / 2 * Real.cos e.1 - H.m2 t / 2 : ℝ) : ℂ) * mono (H.a t) (H.b t) e) with hB
  have hev : ∀ᶠ t in 𝓝 (x i).1, Real.sin t ≠ 0 := Real.continuous_sin.continuousAt.eventually_ne hs
  -- first order
  have d1 : ∀ e : Angles, Real.sin e.1 ≠ 0 → (Real.sin e.1 : ℂ) * dTheta i F (Function.update x i e) = B e := by
    intro e he
    have he' : (Real.sin e.1 : ℂ) ≠ 0 := by exact_mod_cast he
    unfold dTheta
    simp only [Function.update_self, Function.update_idem]
    rw [(H.theta e.1 e.2 he).deriv, Finset.mul_sum]
    refine Finset.sum_congr rfl fun t _ => ?_
    field_simp
  have d2 : ∀ e : Angles, piPhi ((N : ℝ) / 2) i F (Function.update x i e) = B e := by
    intro e
    unfold piPhi dPhi
    simp only [Function.update_self, Function.update_idem]
    rw [(H.phi e.1 e.2).deriv, hB, H.eq]
    rw [Finset.mul_sum, Finset.mul_sum, ← Finset.sum_add_distrib]
    refine Finset.sum_congr rfl fun t _ => ?_
    push_cast
    linear_combination (H.c t * (H.m2 t / 2) * mono (H.a t) (H.b t) e) * Complex.I_sq
  -- second order
  have e1 : dTheta i (fun y => (Real.sin (y i).1 : ℂ) * dTheta i F y) x
      = ∑ t ∈ H.S, H.c t * (-((N : ℝ) / 2 * Real.sin (x i).1 : ℝ) * mono (H.a t) (H.b t) (x i)
        + (((N : ℝ) / 2 * Real.cos (x i).1 - H.m2 t / 2 : ℝ) : ℂ) ^ 2 / Real.sin (x i).1 * mono (H.a t) (H.b t) (x i)) := by
    unfold dTheta
    have he : (fun t => (Real.sin (Function.update x i (t, (x i).2) i).1 : ℂ) * dTheta i F (Function.update x i (t, (x i).2)))
        =ᶠ[𝓝 (x i).1] fun t => B (t, (x i).2) := by
      filter_upwards [hev] with t ht
      rw [← d1 (t, (x i).2) ht, Function.update_self]
    unfold dTheta at he
    rw [he.deriv_eq]
    refine HasDerivAt.deriv ?_
    refine HasDerivAt.fun_sum fun t ht => HasDerivAt.const_mul (H.c t) ?_
    have h1 : HasDerivAt (fun s : ℝ => (((N : ℝ) / 2 * Real.cos s - H.m2 t / 2 : ℝ) : ℂ)) ((-((N : ℝ) / 2 * Real.sin (x i).1) : ℝ) : ℂ) (x i).1 := by
      have := (((Real.hasDerivAt_cos (x i).1).const_mul ((N : ℝ) / 2)).sub_const (H.m2 t / 2)).ofReal_comp
      refine this.congr_deriv ?_
      push_cast; ring
    have h2 := mono_theta (H.a t) (H.b t) (x i).1 (x i).2 hs
    rw [(H.cast ht).1, (H.cast ht).2] at h2
    refine (h1.mul h2).congr_deriv ?_
    push_cast
    ring
  have e2 : piPhi ((N : ℝ) / 2) i (piPhi ((N : ℝ) / 2) i F) x
      = ∑ t ∈ H.S, H.c t * ((((N : ℝ) / 2 * Real.cos (x i).1 - H.m2 t / 2 : ℝ) : ℂ) ^ 2 * mono (H.a t) (H.b t) (x i)) := by
    show Complex.I * dPhi i (piPhi ((N : ℝ) / 2) i F) x + _ * piPhi ((N : ℝ) / 2) i F x = _
    have hx : piPhi ((N : ℝ) / 2) i F x = B (x i) := by rw [← d2, Function.update_eq_self]
    have hd : dPhi i (piPhi ((N : ℝ) / 2) i F) x = ∑ t ∈ H.S, H.c t * ((((N : ℝ) / 2 * Real.cos (x i).1 - H.m2 t / 2 : ℝ) : ℂ)
        * (Complex.I * (H.m2 t / 2 : ℝ) * mono (H.a t) (H.b t) (x i))) := by
      unfold dPhi
      simp only [d2]
      refine HasDerivAt.deriv ?_
      refine HasDerivAt.fun_sum fun t ht => HasDerivAt.const_mul (H.c t) (HasDerivAt.const_mul (((N : ℝ) / 2 * Real.cos (x i).1 - H.m2 t / 2 : ℝ) : ℂ) ?_)
      have h2 := mono_phi (H.a t) (H.b t) (x i).1 (x i).2
      rwa [(H.cast ht).2] at h2
    rw [hx, hd, hB, Finset.mul_sum, Finset.mul_sum, ← Finset.sum_add_distrib]
    refine Finset.sum_congr rfl fun t _ => ?_
    push_cast
    linear_combination (H.c t * ((N / 2 * Complex.cos (x i).1 - H.m2 t / 2) * (H.m2 t / 2) * mono (H.a t) (H.b t) (x i))) * Complex.I_sq
  have hx : F x = ∑ s ∈ H.S, H.c s * mono (H.a s) (H.b s) (x i) := by rw [← H.eq, Function.update_eq_self]
  unfold lambdaSq
  rw [e1, e2, hx]
  rw [Finset.mul_sum, Finset.mul_sum, Finset.mul_sum, ← Finset.sum_add_distrib]
  refine Finset.sum_congr rfl fun t _ => ?_
  push_cast at hs' ⊢
  field_simp
  ring

theorem lambdaSq_congr (Q : ℝ) (i : Fin n) {F G : Conf n → ℂ} {x : Conf n} (h : F =ᶠ[𝓝 x] G) : lambdaSq Q i F x = lambdaSq Q i G x := by
  have h1 : (fun y => (Real.sin (y i).1 : ℂ) * dTheta i F y) =ᶠ[𝓝 x] fun y => (Real.sin (y i).1 : ℂ) * dTheta i G y := by
    filter_upwards [h.eventuallyEq_nhds] with y hy
    rw [dTheta_congr i hy]
  have h2 : piPhi Q i F =ᶠ[𝓝 x] piPhi Q i G := by
    filter_upwards [h.eventuallyEq_nhds] with y hy
    unfold piPhi
    rw [dPhi_congr i hy, hy.self_of_nhds]
  unfold lambdaSq
  rw [dTheta_congr i h1]
  congr 2
  show Complex.I * dPhi i (piPhi Q i F) x + _ * piPhi Q i F x = Complex.I * dPhi i (piPhi Q i G) x + _ * piPhi Q i G x
  rw [dPhi_congr i h2, h2.self_of_nhds]

end Jaqmc.Kinetic.Props
