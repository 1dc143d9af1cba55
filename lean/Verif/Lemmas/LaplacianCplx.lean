import Verif.Lemmas.LaplacianOps
import Mathlib.Algebra.BigOperators.Field
/-! Proof of C44 for complex components, dtype conversion and absolute values. -/
namespace Jaqmc.Laplacian
open Spec Filter Topology

variable {κ : Type} [Fintype κ]

/-- One tracked argument, one tracked result. -/
theorem one_follows {bind : List Arr → Except String (List Arr)} {t t' : Ty} {a : Lap κ (Space t)} {b : Lap κ (Space t')}
    {γs : List (κ → ℝ → Arr)} (hd : List.Forall₂ Describes γs [.tracked t a]) (F : Space t → Space t')
    (hb : ∀ᶠ v in 𝓝 a.x, bind [.num t v] = .ok [.num t' (F v)]) (hx : b.x = F a.x)
    (hc : ∀ g : κ → ℝ → Space t, CurveLap g a.x a.jac a.lap → CurveLap (fun k s => F (g k s)) b.x b.jac b.lap) :
    Follows bind γs [Arr.num t a.x] [.tracked t' b] := by
  match γs, hd with
  | [γ], .cons ⟨g, h1, h2⟩ .nil =>
    refine ⟨?_, [fun k s => .num t' (F (g k s))], .cons ⟨_, fun k => Eventually.of_forall fun _ => rfl, hc g h2⟩ .nil, fun k => ?_⟩
    · rw [hb.self_of_nhds]
      simp only [List.map_cons, List.map_nil, TVal.primal, hx]
    · filter_upwards [h1 k, (h2.tendsto k).eventually hb] with s e1 e2
      simp only [List.map_cons, List.map_nil, e1, e2]

section lin
variable {X Y : Type} [NormedAddCommGroup X] [NormedSpace ℝ X] [NormedAddCommGroup Y] [NormedSpace ℝ Y]

theorem curve_mapLap {n : ℕ} (A : X →L[ℝ] Y) (f : X → Y) (hf : ∀ x, f x = A x) {a : Lap κ (Fin n → X)} {g : κ → ℝ → Fin n → X}
    (h : CurveLap g a.x a.jac a.lap) :
    CurveLap (fun k s i => f (g k s i)) (mapLap f a).x (mapLap f a).jac (mapLap f a).lap := by
  refine CurveLap.pi fun i => ?_
  have h2 := (h.apply i).clm A
  refine Spec.CurveLap.congr (Spec.CurveLap.of_eq h2 (hf _) (fun k => hf _) (hf _)) fun k => Eventually.of_forall fun s => hf _

end lin

theorem conj_sound : SoundFor (κ := κ) conjBind conjRule fun _ => True := by
  intro γs vs hd _ outs ho
  match vs, hd with
  | [.tracked (.cplx n) a], hd =>
    simp only [conjRule, Except.ok.injEq] at ho
    subst ho
    exact one_follows hd (fun v i => (starRingEnd ℂ) ((v : Fin n → ℂ) i)) (Eventually.of_forall fun v => rfl) rfl fun g h =>
      curve_mapLap (n := n) Complex.conjCLE.toContinuousLinearMap _ (fun _ => rfl) h
  | [.tracked (.real n) a], _ => simp [conjRule] at ho
  | [.plain a], _ => simp [conjRule] at ho
  | [], _ => simp [conjRule] at ho
  | _ :: _ :: _, _ => simp [conjRule] at ho

theorem real_sound : SoundFor (κ := κ) realBind realRule fun _ => True := by
  intro γs vs hd _ outs ho
  match vs, hd with
  | [.tracked (.cplx n) a], hd =>
    simp only [realRule, Except.ok.injEq] at ho
    subst ho
    exact one_follows hd (fun v i => ((v : Fin n → ℂ) i).re) (Eventually.of_forall fun v => rfl) rfl fun g h =>
      curve_mapLap (n := n) Complex.reCLM _ (fun _ => rfl) h
  | [.tracked (.real n) a], _ => simp [realRule] at ho
  | [.plain a], _ => simp [realRule] at ho
  | [], _ => simp [realRule] at ho
  | _ :: _ :: _, _ => simp [realRule] at ho

theorem imag_sound : SoundFor (κ := κ) imagBind imagRule fun _ => True := by
  intro γs vs hd _ outs ho
  match vs, hd with
  | [.tracked (.cplx n) a], hd =>
    simp only [imagRule, Except.ok.injEq] at ho
    subst ho
    exact one_follows hd (fun v i => ((v : Fin n → ℂ) i).im) (Eventually.of_forall fun v => rfl) rfl fun g h =>
      curve_mapLap (n := n) Complex.imCLM _ (fun _ => rfl) h
  | [.tracked (.real n) a], _ => simp [imagRule] at ho
  | [.plain a], _ => simp [imagRule] at ho
  | [], _ => simp [imagRule] at ho
  | _ :: _ :: _, _ => simp [imagRule] at ho

theorem toCplx_sound : SoundFor (κ := κ) toCplxBind toCplxRule fun _ => True := by
  intro γs vs hd _ outs ho
  match vs, hd with
  | [.tracked (.cplx n) a], hd =>
    simp only [toCplxRule, Except.ok.injEq] at ho
    subst ho
    exact one_follows hd (fun v => v) (Eventually.of_forall fun v => rfl) rfl fun g h => h
  | [.tracked (.real n) a], hd =>
    simp only [toCplxRule, Except.ok.injEq] at ho
    subst ho
    exact one_follows hd (fun v i => (((v : Fin n → ℝ) i : ℝ) : ℂ)) (Eventually.of_forall fun v => rfl) rfl fun g h =>
      curve_mapLap (n := n) Complex.ofRealCLM _ (fun _ => rfl) h
  | [.plain a], hd =>
    simp only [toCplxRule] at ho
    exact plain_sound toCplxBind γs _ hd rfl outs ho
  | [], _ => simp [toCplxRule] at ho
  | _ :: _ :: _, _ => simp [toCplxRule] at ho

theorem toReal_sound : SoundFor (κ := κ) toRealBind toRealRule fun _ => True := by
  intro γs vs hd _ outs ho
  match vs, hd with
  | [.tracked (.real n) a], hd =>
    simp only [toRealRule, Except.ok.injEq] at ho
    subst ho
    exact one_follows hd (fun v => v) (Eventually.of_forall fun v => rfl) rfl fun g h => h
  | [.tracked (.cplx n) a], hd =>
    simp only [toRealRule, Except.ok.injEq] at ho
    subst ho
    exact one_follows hd (fun v i => ((v : Fin n → ℂ) i).re) (Eventually.of_forall fun v => rfl) rfl fun g h =>
      curve_mapLap (n := n) Complex.reCLM _ (fun _ => rfl) h
  | [.plain a], hd =>
    simp only [toRealRule] at ho
    exact plain_sound toRealBind γs _ hd rfl outs ho
  | [], _ => simp [toRealRule] at ho
  | _ :: _ :: _, _ => simp [toRealRule] at ho

theorem toDisc_sound : SoundFor (κ := κ) toDiscBind toDiscRule (ConstAt toDiscBind) := barrier_sound _

/-! ### Absolute value -/

/-- No element is zero. -/
def okAbs : List Arr → Prop
  | [.num (.real n) v] => ∀ i : Fin n, (v : Fin n → ℝ) i ≠ 0
  | [.num (.cplx n) v] => ∀ i : Fin n, (v : Fin n → ℂ) i ≠ 0
  | _ => True

theorem sqrt_derivs (x : ℝ) (hx : 0 < x) :
    deriv Real.sqrt x = 1 / (2 * Real.sqrt x) ∧ deriv (deriv Real.sqrt) x = -1 / (4 * Real.sqrt x ^ 3) := by
  constructor
  · exact (Real.hasDerivAt_sqrt (ne_of_gt hx)).deriv
  · have he : deriv Real.sqrt =ᶠ[𝓝 x] fun y => 1 / (2 * Real.sqrt y) := by
      filter_upwards [lt_mem_nhds hx] with y hy
      exact (Real.hasDerivAt_sqrt (ne_of_gt hy)).deriv
    rw [he.deriv_eq]
    have hs : Real.sqrt x ≠ 0 := ne_of_gt (Real.sqrt_pos.2 hx)
    have h := ((Real.hasDerivAt_sqrt (ne_of_gt hx)).const_mul 2).inv (by positivity : 2 * Real.sqrt x ≠ 0)
    have h' : HasDerivAt (fun y => 1 / (2 * Real.sqrt y)) (-(2 * (1 / (2 * Real.sqrt x))) / (2 * Real.sqrt x) ^ 2) x := by
      have e : (fun y => 1 / (2 * Real.sqrt y)) = (fun y => 2 * Real.sqrt y)⁻¹ := by
        funext y; simp only [one_div, Pi.inv_apply]
      rw [e]; exact h
    rw [h'.deriv]
    field_simp
    norm_num

theorem abs_alg {ι : Type} [Fintype ι] (y r s a b : ℝ) (p q : ι → ℝ) (hy : y ≠ 0) :
    ((r * a + s * b) / y + ((∑ k, (p k ^ 2 + q k ^ 2)) - ∑ k, ((r * p k + s * q k) / y) ^ 2) / y) =
    1 / (2 * y) * ((a * r + r * a + 2 * ∑ k, p k * p k) + (b * s + s * b + 2 * ∑ k, q k * q k)) +
      -1 / (4 * y ^ 3) * ∑ k, (p k * r + r * p k + (q k * s + s * q k)) * (p k * r + r * p k + (q k * s + s * q k)) := by
  have h1 : ∑ k, ((r * p k + s * q k) / y) ^ 2 = (∑ k, (r * p k + s * q k) ^ 2) / y ^ 2 := by
    rw [Finset.sum_div]; exact Finset.sum_congr rfl fun k _ => by rw [div_pow]
  have h2 : ∑ k, (p k * r + r * p k + (q k * s + s * q k)) * (p k * r + r * p k + (q k * s + s * q k)) =
      4 * ∑ k, (r * p k + s * q k) ^ 2 := by
    rw [Finset.mul_sum]; exact Finset.sum_congr rfl fun k _ => by ring
  have h3 : ∑ k, (p k ^ 2 + q k ^ 2) = ∑ k, p k * p k + ∑ k, q k * q k := by
    rw [← Finset.sum_add_distrib]; exact Finset.sum_congr rfl fun k _ => by ring
  rw [h1, h2, h3]
  field_simp
  ring

theorem curve_abs {γ : κ → ℝ → ℂ} {x : ℂ} {J : κ → ℂ} {L : ℂ} (h : CurveLap γ x J L) (hx : x ≠ 0) :
    CurveLap (fun k t => ‖γ k t‖) ‖x‖ (fun k => (x.re * (J k).re + x.im * (J k).im) / ‖x‖)
      ((x.re * L.re + x.im * L.im) / ‖x‖ + ((∑ k, ‖J k‖ ^ 2) - ∑ k, ((x.re * (J k).re + x.im * (J k).im) / ‖x‖) ^ 2) / ‖x‖) := by
  have hr := h.clm Complex.reCLM
  have hi := h.clm Complex.imCLM
  have hn := (hr.mul hr).add (hi.mul hi)
  simp only [Complex.reCLM_apply, Complex.imCLM_apply] at hn
  have hnorm : ∀ z : ℂ, ‖z‖ = Real.sqrt (z.re * z.re + z.im * z.im) := fun z => by
    rw [Complex.norm_def, Complex.normSq_apply]
  have hpos : 0 < x.re * x.re + x.im * x.im := by
    have := Complex.normSq_pos.2 hx
    rwa [Complex.normSq_apply] at this
  have h2 := hn.scomp (f := Real.sqrt) (Real.contDiffAt_sqrt (ne_of_gt hpos))
  obtain ⟨e1, e2⟩ := sqrt_derivs _ hpos
  rw [e1, e2, ← hnorm x] at h2
  have hy : ‖x‖ ≠ 0 := norm_ne_zero_iff.2 hx
  have h3 := h2.congr (δ := fun k t => ‖γ k t‖) fun k => Eventually.of_forall fun t => hnorm _
  refine Spec.CurveLap.of_eq h3 rfl (fun k => ?_) ?_
  · field_simp
    ring
  · have hJ : ∀ k, ‖J k‖ ^ 2 = (J k).re ^ 2 + (J k).im ^ 2 := fun k => by
      rw [← Complex.normSq_eq_norm_sq, Complex.normSq_apply]; ring
    simp only [hJ]
    exact abs_alg ‖x‖ x.re x.im L.re L.im (fun k => (J k).re) (fun k => (J k).im) hy

theorem abs_affine {n : ℕ} (v : Fin n → ℝ) (h : ∀ i, v i ≠ 0) : AffineAt absBind [.num (.real n) v] := by
  let A : (Fin n → ℝ) →L[ℝ] (Fin n → ℝ) := ContinuousLinearMap.pi fun i => (SignType.sign (v i) : ℝ) • ContinuousLinearMap.proj i
  refine ⟨.real n, A.comp (ContinuousLinearMap.fst ℝ (Fin n → ℝ) PUnit), 0, ?_⟩
  have hs : ∀ i, ∀ᶠ y in 𝓝 (pt [Arr.num (.real n) v]), |(y.1 : Fin n → ℝ) i| = (SignType.sign (v i) : ℝ) * (y.1 : Fin n → ℝ) i := by
    intro i
    have hc : Tendsto (fun y : (Fin n → ℝ) × PUnit => y.1 i) (𝓝 ((v, PUnit.unit) : (Fin n → ℝ) × PUnit)) (𝓝 (v i)) :=
      ((continuous_apply i).comp continuous_fst).tendsto _
    rcases lt_or_gt_of_ne (h i) with hi | hi
    · refine (hc.eventually (gt_mem_nhds hi)).mono fun y hy => ?_
      rw [abs_of_neg hy, sign_neg hi]
      simp
    · refine (hc.eventually (lt_mem_nhds hi)).mono fun y hy => ?_
      rw [abs_of_pos hy, sign_pos hi]
      simp
  refine (eventually_all.2 hs).mono fun y hy => ?_
  show Except.ok [Arr.num (.real n) fun i : Fin n => |(y.1 : Fin n → ℝ) i|] = .ok [.num (.real n) _]
  congr 3
  funext (i : Fin n)
  rw [hy i]
  show _ = A y.1 i + 0
  rw [add_zero]
  rfl

theorem abs_sound : SoundFor (κ := κ) absBind absRule okAbs := by
  intro γs vs hd hok outs ho
  match vs, hd with
  | [.tracked (.cplx n) a], hd =>
    simp only [absRule, Except.ok.injEq] at ho
    subst ho
    refine one_follows hd (fun v i => ‖(v : Fin n → ℂ) i‖) (Eventually.of_forall fun v => rfl) rfl fun g h => ?_
    refine CurveLap.pi (ι := Fin n) fun i => ?_
    exact curve_abs (Spec.CurveLap.apply (ι := Fin n) h i) (hok i)
  | [.tracked (.real n) a], hd =>
    simp only [absRule] at ho
    exact linear_sound absBind γs _ hd (abs_affine (n := n) a.x hok) outs ho
  | [.plain a], _ => simp [absRule] at ho
  | [], _ => simp [absRule] at ho
  | _ :: _ :: _, _ => simp [absRule] at ho

end Jaqmc.Laplacian
