import Verif.Lemmas.Kinetic
import Verif.Props.Laplacian
/-! C68 (kinetic energy in Euclidean space). -/
namespace Jaqmc.Kinetic.Props
open Filter Topology Spec Laplacian Laplacian.Spec Laplacian.Props
open scoped BigOperators ContDiff

variable {n : ℕ}

theorem diagonalSum_eq {K : Type} [Ring K] (mode : Mode) (dg : (Fin n → ℝ) → Fin n → K) : diagonalSum mode dg = ∑ i, dg (eye i) i := by
  have hs : ((List.finRange n).map fun i => dg (eye i) i).sum = ∑ i, dg (eye i) i := by
    rw [← List.ofFn_eq_map, List.sum_ofFn]
  cases mode with
  | scan => exact hs
  | foriLoop =>
    unfold diagonalSum
    rw [← hs]
    have : ∀ (l : List (Fin n)) (a : K), l.foldl (fun val i => val + dg (eye i) i) a = a + (l.map fun i => dg (eye i) i).sum := by
      intro l
      induction l with
      | nil => simp
      | cons i l ih => intro a; simp [ih, add_assoc]
    simpa using this (List.finRange n) 0

/-- The diagonal entry of the linearised gradient. -/
theorem linearize_apply {F : (Fin n → ℝ) → Fin n → ℝ} {x : Fin n → ℝ} (hF : ∀ i, DifferentiableAt ℝ (fun y => F y i) x) (v : Fin n → ℝ) (i : Fin n) :
    (linearize F x).2 v i = fderiv ℝ (fun y => F y i) x v := by
  unfold linearize
  have h := hasFDerivAt_pi.2 fun i => (hF i).hasFDerivAt
  rw [h.fderiv]
  rfl

theorem standard_value (mode : Mode) (f : (Fin n → ℝ) → ℝ) (x : Fin n → ℝ) (hf : ContDiffAt ℝ 2 f x) :
    standard mode f x = -(1 / 2) * (∑ i, D (eye i) (D (eye i) f) x) - 1 / 2 * ∑ i, D (eye i) f x ^ 2 := by
  unfold standard kineticFormula
  simp only
  rw [diagonalSum_eq]
  congr 2
  exact Finset.sum_congr rfl fun i _ => linearize_apply (F := grad f) (fun j => diff_D hf (eye j)) (eye i) i

theorem standardC_value (mode : Mode) (f : (Fin n → ℝ) → ℂ) (x : Fin n → ℝ) (hf : ContDiffAt ℝ 2 f x) :
    standardC mode f x = -(1 / 2) * (∑ i, D (eye i) (D (eye i) f) x) - 1 / 2 * ∑ i, D (eye i) f x ^ 2 := by
  have hd := (eventually_diff hf).self_of_nhds
  have hg : ∀ j, (fun y => gradC f y j) =ᶠ[𝓝 x] fun y => D (eye j) f y := by
    intro j
    filter_upwards [eventually_diff hf] with y hy
    exact pdC_eq (eye j) hy
  have hdg : ∀ j, DifferentiableAt ℝ (fun y => gradC f y j) x := fun j => (hg j).differentiableAt_iff.2 (diff_D hf (eye j))
  unfold standardC kineticFormula
  simp only
  rw [diagonalSum_eq]
  congr 2
  · refine Finset.sum_congr rfl fun i _ => ?_
    show ((linearize (fun y i => (gradC f y i).re) x).2 (eye i) i : ℂ) + Complex.I * ((linearize (fun y i => (gradC f y i).im) x).2 (eye i) i : ℂ) = _
    rw [linearize_apply (F := fun y i => (gradC f y i).re) (fun j => Complex.reCLM.differentiableAt.comp x (hdg j)),
      linearize_apply (F := fun y i => (gradC f y i).im) (fun j => Complex.imCLM.differentiableAt.comp x (hdg j))]
    have := pdC_eq (eye i) (hdg i)
    unfold pdC pd at this
    rw [this, D_congr (eye i) (hg i)]
  · refine Finset.sum_congr rfl fun i _ => ?_
    show ((gradC f x i).re + Complex.I * (gradC f x i).im : ℂ) ^ 2 = _
    rw [mul_comm, Complex.re_add_im]
    exact congrArg (· ^ 2) (pdC_eq (eye i) hd)

theorem laplacian_psi {K : Type} [RCLike K] (ex : K → K) (hex : ∀ z, HasDerivAt ex (ex z) z) (s : K) {f ψ : (Fin n → ℝ) → K} {x : Fin n → ℝ}
    (hf : ContDiffAt ℝ 2 f x) (hψ : ∀ᶠ y in 𝓝 x, ψ y = s * ex (f y)) :
    laplacian ψ x = ψ x * ((∑ i, D (eye i) (D (eye i) f) x) + ∑ i, D (eye i) f x ^ 2) := by
  unfold laplacian
  rw [← Finset.sum_add_distrib, Finset.mul_sum]
  refine Finset.sum_congr rfl fun i _ => ?_
  obtain ⟨h1, h2⟩ := D_psi ex hex s hf hψ (eye i) (eye i)
  have h3 : D (eye i) ψ =ᶠ[𝓝 x] fun y => ψ y * D (eye i) f y := h1.mono fun y h => h.2
  rw [second_eq i x (h1.mono fun y h => h.1) (h3.differentiableAt_iff.2 (h1.self_of_nhds.1.mul (diff_D hf (eye i)))), h2]
  ring

/-- C68 (complex wavefunctions, both Hessian modes): with `ψ = exp(log psi)` the estimator returns `-½ Δψ / ψ`. -/
theorem c68_complex (mode : Mode) (f : (Fin n → ℝ) → ℂ) (x : Fin n → ℝ) (hf : ContDiffAt ℝ 2 f x) :
    standardC mode f x * Complex.exp (f x) = -(1 / 2) * laplacian (fun y => Complex.exp (f y)) x := by
  rw [standardC_value mode f x hf, laplacian_psi Complex.exp Complex.hasDerivAt_exp 1 hf (Eventually.of_forall fun y => (one_mul _).symm)]
  ring

/-- C68 (real wavefunctions, both Hessian modes): `ψ = sign * exp(log psi)` with a sign of `±1` (as the wavefunctions report
it), where `ψ` is continuous: the estimator returns `-½ Δψ / ψ`. -/
theorem c68_real (mode : Mode) (f ψ σ : (Fin n → ℝ) → ℝ) (x : Fin n → ℝ) (hf : ContDiffAt ℝ 2 f x) (hσ : ∀ y, σ y = 1 ∨ σ y = -1)
    (hψ : ∀ y, ψ y = σ y * Real.exp (f y)) (hc : ContinuousAt ψ x) :
    standard mode f x * ψ x = -(1 / 2) * laplacian ψ x := by
  have hloc : ∀ᶠ y in 𝓝 x, ψ y = σ x * Real.exp (f y) := by
    rcases hσ x with h | h
    · have hp : 0 < ψ x := by rw [hψ, h, one_mul]; exact Real.exp_pos _
      filter_upwards [hc.eventually (lt_mem_nhds hp)] with y hy
      rw [hψ y] at hy ⊢
      rcases hσ y with h' | h'
      · rw [h, h']
      · rw [h'] at hy; have := Real.exp_pos (f y); linarith
    · have hp : ψ x < 0 := by rw [hψ, h]; have := Real.exp_pos (f x); linarith
      filter_upwards [hc.eventually (gt_mem_nhds hp)] with y hy
      rw [hψ y] at hy ⊢
      rcases hσ y with h' | h'
      · rw [h'] at hy; have := Real.exp_pos (f y); linarith
      · rw [h, h']
  rw [standard_value mode f x hf, laplacian_psi Real.exp Real.hasDerivAt_exp (σ x) hf hloc]
  ring

/-- C68: the three modes agree.  `jac` and `lap` are what `forward_laplacian` returns (C44): first derivatives and sum of second
derivatives in the coordinate directions. -/
theorem c68_modes (mode : Mode) (f : (Fin n → ℝ) → ℂ) (x : Fin n → ℝ) (hf : ContDiffAt ℝ 2 f x) (v : ℂ) (jac : Fin n → ℂ) (lap : ℂ)
    (h : IsLaplacian x eye f v jac lap) : forward jac lap = standardC mode f x := by
  obtain ⟨rfl, h⟩ := h
  have h3 := Laplacian.Spec.CurveLap.comp hf (CurveLap_line x (eye (n := n)))
  obtain ⟨e1, e2⟩ := h.unique h3
  rw [standardC_value mode f x hf]
  unfold forward kineticFormula
  have hD : ∀ i, D (eye i) (D (eye i) f) x = fderiv ℝ (fderiv ℝ f) x (eye i) (eye i) := by
    intro i
    have h1 : ContDiffAt ℝ 1 (fderiv ℝ f) x := hf.fderiv_right (by norm_num)
    unfold D
    rw [fderiv_clm_apply (h1.differentiableAt (by norm_num)) (differentiableAt_const _)]
    simp
  rw [e2, e1]
  simp only [hD]
  simp [D]

/-- C68 (forward mode, complex wavefunctions): the traced program of `log psi` is run by `forward_laplacian` with the positions
(and only them) tracked.  If it returns a tracked complex scalar, the energy computed from it is `-½ Δψ / ψ` for `ψ = exp(log psi)`,
the Laplacian being over the tracked coordinates. -/
theorem c68_forward (ins : Inputs) (p : Prog (SIdx ins)) (hp : ∀ e ∈ p.eqns, Builtin e.prim) (hlim : p.fewReads) (hok : p.okRun (leaves ins))
    (outs : List (TVal (SIdx ins))) (h : forwardLaplacian ins (fun _ => 1) p = .ok outs) (j : ℕ) (a : Lap (SIdx ins) (Space (.cplx 1)))
    (hj : outs[j]? = some (.tracked (.cplx 1) a)) :
    ∃ (J : SIdx ins → ℂ) (L : ℂ),
      IsLaplacian (pt (leaves ins)) (fun k => dir ins k 1) (fun y => Complex.exp ((output p (leaves ins) j (.cplx 1) y : Fin 1 → ℂ) 0))
        (Complex.exp ((a.x : Fin 1 → ℂ) 0)) J L ∧
      forward (fun k => (a.jac k : Fin 1 → ℂ) 0) ((a.lap : Fin 1 → ℂ) 0) * Complex.exp ((a.x : Fin 1 → ℂ) 0) = -(1 / 2) * L := by
  obtain ⟨h1, h2⟩ := ((c44_forward_laplacian_partial ins _ p hp hlim hok outs h).2.1 j _ a hj).1
  have h3 := (CurveLap.apply (E := ℂ) (ι := Fin 1) h2 0).scomp (f := Complex.exp) Complex.contDiff_exp.contDiffAt
  refine ⟨_, _, ⟨congrArg Complex.exp (congrFun (h1 : (_ : Fin 1 → ℂ) = _) 0), h3⟩, ?_⟩
  unfold forward kineticFormula
  simp only [Complex.deriv_exp, pow_two]
  ring

/-- C68 (forward mode, real wavefunctions): the same with `ψ = s exp(log psi)`, for the sign `s` of the wavefunction around the
configuration. -/
theorem c68_forward_real (ins : Inputs) (p : Prog (SIdx ins)) (hp : ∀ e ∈ p.eqns, Builtin e.prim) (hlim : p.fewReads) (hok : p.okRun (leaves ins))
    (outs : List (TVal (SIdx ins))) (h : forwardLaplacian ins (fun _ => 1) p = .ok outs) (j : ℕ) (a : Lap (SIdx ins) (Space (.real 1)))
    (hj : outs[j]? = some (.tracked (.real 1) a)) (s : ℝ) :
    ∃ (J : SIdx ins → ℝ) (L : ℝ),
      IsLaplacian (pt (leaves ins)) (fun k => dir ins k 1) (fun y => s * Real.exp ((output p (leaves ins) j (.real 1) y : Fin 1 → ℝ) 0))
        (s * Real.exp ((a.x : Fin 1 → ℝ) 0)) J L ∧
      forward (fun k => (a.jac k : Fin 1 → ℝ) 0) ((a.lap : Fin 1 → ℝ) 0) * (s * Real.exp ((a.x : Fin 1 → ℝ) 0)) = -(1 / 2) * L := by
  obtain ⟨h1, h2⟩ := ((c44_forward_laplacian_partial ins _ p hp hlim hok outs h).2.1 j _ a hj).1
  have h3 := (CurveLap.apply (E := ℝ) (ι := Fin 1) h2 0).scomp (f := fun z => s * Real.exp z) (contDiff_const.mul Real.contDiff_exp).contDiffAt
  have hd : deriv (fun z => s * Real.exp z) = fun z => s * Real.exp z := by
    funext z
    exact ((Real.hasDerivAt_exp z).const_mul s).deriv
  refine ⟨_, _, ⟨congrArg (fun z => s * Real.exp z) (congrFun (h1 : (_ : Fin 1 → ℝ) = _) 0), h3⟩, ?_⟩
  unfold forward kineticFormula
  simp only [hd, pow_two]
  ring

/-- The hypotheses of the forward theorems can be met: `log psi = x · x` in two coordinates, energy `-½ (4 + 4 |x|²)`. -/
example (v : Fin 2 → ℝ) : ∃ a : Lap _ (Space (.real 1)),
    forwardLaplacian [(true, .num (.real 2) v)] (fun _ => 1) (demo _) = .ok [.tracked (.real 1) a] ∧
    (demo (SIdx [(true, .num (.real 2) v)])).okRun [.num (.real 2) v] := by
  obtain ⟨a, ha⟩ := demo_run v
  exact ⟨a, ha, demo_ok _ _⟩

/-- C68: a plane wave `exp(i k x)` has kinetic energy `k² / 2` everywhere. -/
example (mode : Mode) (k : ℝ) (x : Fin 1 → ℝ) : standardC mode (fun y : Fin 1 → ℝ => Complex.I * k * (y 0 : ℂ)) x = (k : ℂ) ^ 2 / 2 := by
  let A : (Fin 1 → ℝ) →L[ℝ] ℂ := (Complex.I * k) • (Complex.ofRealCLM.comp (ContinuousLinearMap.proj (R := ℝ) (φ := fun _ : Fin 1 => ℝ) 0))
  have hA : (fun y : Fin 1 → ℝ => Complex.I * k * (y 0 : ℂ)) = A := by funext y; simp [A]
  rw [standardC_value mode _ x (by rw [hA]; exact A.contDiff.contDiffAt), hA]
  have h1 : ∀ y, D (eye (0 : Fin 1)) A y = Complex.I * k := by
    intro y
    unfold D
    rw [A.fderiv]
    simp [A, eye]
  simp only [Finset.univ_unique, Fin.default_eq_zero, Finset.sum_singleton]
  have h2 : D (eye (0 : Fin 1)) (D (eye (0 : Fin 1)) A) x = 0 := by
    rw [show D (eye (0 : Fin 1)) A = fun _ => Complex.I * k from funext h1]
    exact D_const _ _ _
  rw [h1, h2, mul_pow, Complex.I_sq]
  ring

end Jaqmc.Kinetic.Props
