import Verif.Props.GtoEval
/-! C101: the first shells, the omitted weights, and the Bloch sums of the orbitals. -/
namespace Jaqmc.Gto.Props
open Geometry Spec
open Geometry.Spec (translation)
open scoped BigOperators Classical

theorem norm_00 : normalisation 0 0 = Real.sqrt (1 / (4 * Real.pi)) := by
  unfold normalisation; norm_num

theorem norm_1 : normalisation 1 0 = Real.sqrt (3 / (4 * Real.pi)) ∧ Real.sqrt 2 * normalisation 1 1 = Real.sqrt (3 / (4 * Real.pi)) := by
  constructor
  · unfold normalisation; norm_num
  · unfold normalisation
    rw [← Real.sqrt_mul (by norm_num)]
    congr 1
    have := Real.pi_pos
    norm_num [Nat.factorial]
    field_simp

/-- **C101** (s and p shells).  The s orbital is `1/sqrt(4π)`, the three p orbitals are `sqrt(3/4π)` times `x`, `y`, `z`, in
this sequence. -/
theorem c101_shells (r : Vec 3) :
    (order 0).map (fun m => MvPolynomial.eval r (solid 0 m)) = [Real.sqrt (1 / (4 * Real.pi))] ∧
    (order 1).map (fun m => MvPolynomial.eval r (solid 1 m)) = (List.finRange 3).map fun c => Real.sqrt (3 / (4 * Real.pi)) * r c := by
  constructor
  · simp only [order, List.map_cons, List.map_nil, solid, if_true, map_mul, MvPolynomial.eval_C, norm_00]
    simp [zonal]
  · have h1 := norm_1.1
    have h2 := norm_1.2
    have z0 : MvPolynomial.eval r (zonal 1 0) = r 2 := by
      simp [eval_zonal, coef]
    have z1 : MvPolynomial.eval r (zonal 1 1) = 1 := by
      simp [eval_zonal, coef]
    simp only [order, List.map_cons, List.map_nil, solid, show List.finRange 3 = [0, 1, 2] from rfl]
    norm_num [azimuth, z0, z1, h1, h2]

/-- **C101** (omitted weights).  Leaving out the weights up to the threshold changes the radial function by at most the
threshold times the number of primitives, everywhere. -/
theorem c101_threshold (t : ℝ) (ht : 0 ≤ t) (prims : List (ℝ × List ℝ)) (hp : ∀ p ∈ prims, 0 ≤ p.1) (w : ℕ) (r : Vec 3) :
    |(prims.map fun p => p.2.getD w 0 * Real.exp (-p.1 * ∑ c, r c ^ 2)).sum - radial t prims w r| ≤ t * prims.length := by
  unfold radial
  induction prims with
  | nil => simp
  | cons p ps ih =>
    have ih' := ih fun q hq => hp q (List.mem_cons_of_mem _ hq)
    have hr : 0 ≤ ∑ c, r c ^ 2 := Finset.sum_nonneg fun c _ => sq_nonneg _
    have he : Real.exp (-p.1 * ∑ c, r c ^ 2) ≤ 1 := by
      rw [Real.exp_le_one_iff]
      nlinarith [mul_nonneg (hp p List.mem_cons_self) hr]
    rw [List.map_cons, List.sum_cons, List.filter_cons, List.length_cons]
    push_cast
    by_cases h : t < |p.2.getD w 0|
    · rw [if_pos (by simpa using h), List.map_cons, List.sum_cons, add_sub_add_left_eq_sub]
      linarith
    · rw [if_neg (by simpa using h), add_sub_assoc]
      refine (abs_add_le _ _).trans ?_
      have h1 : |p.2.getD w 0 * Real.exp (-p.1 * ∑ c, r c ^ 2)| ≤ t * 1 := by
        rw [abs_mul, abs_of_pos (Real.exp_pos _)]
        exact mul_le_mul (not_lt.1 h) he (Real.exp_pos _).le ht
      linarith

theorem abs_le_norm (r : Vec 3) (i : Fin 3) : |r i| ≤ Geometry.norm r := by
  refine Real.le_sqrt_of_sq_le ?_
  rw [sq_abs]
  exact Finset.single_le_sum (f := fun i => r i ^ 2) (fun i _ => sq_nonneg _) (Finset.mem_univ i)

/-- A homogeneous polynomial grows like its degree. -/
theorem homogeneous_bound (p : Poly) (l : ℕ) (hp : p.IsHomogeneous l) : ∃ A : ℝ, 0 ≤ A ∧ ∀ r : Vec 3, |MvPolynomial.eval r p| ≤ A * Geometry.norm r ^ l := by
  refine ⟨∑ d ∈ p.support, |p.coeff d|, Finset.sum_nonneg fun d _ => abs_nonneg _, fun r => ?_⟩
  rw [MvPolynomial.eval_eq, Finset.sum_mul]
  refine (Finset.abs_sum_le_sum_abs _ _).trans (Finset.sum_le_sum fun d hd => ?_)
  rw [abs_mul, Finset.abs_prod]
  refine mul_le_mul_of_nonneg_left ?_ (abs_nonneg _)
  have hdeg : ∑ i ∈ d.support, d i = l := by
    have := hp (MvPolynomial.mem_support_iff.1 hd)
    rw [Finsupp.weight_apply, Finsupp.sum] at this
    simpa using this
  rw [← hdeg, ← Finset.prod_pow_eq_pow_sum]
  refine Finset.prod_le_prod (fun i _ => abs_nonneg _) fun i _ => ?_
  rw [abs_pow]
  exact pow_le_pow_left₀ (abs_nonneg _) (abs_le_norm r i) _

theorem radial_bound (t alpha : ℝ) (prims : List (ℝ × List ℝ)) (hp : ∀ p ∈ prims, alpha ≤ p.1) (w : ℕ) :
    ∃ A : ℝ, 0 ≤ A ∧ ∀ r : Vec 3, |radial t prims w r| ≤ A * Real.exp (-alpha * Geometry.norm r ^ 2) := by
  induction prims with
  | nil => exact ⟨0, le_rfl, fun r => by simp [radial]⟩
  | cons p ps ih =>
    obtain ⟨A, hA, h⟩ := ih fun q hq => hp q (List.mem_cons_of_mem _ hq)
    refine ⟨|p.2.getD w 0| + A, by positivity, fun r => ?_⟩
    have hn : Geometry.norm r ^ 2 = ∑ c, r c ^ 2 := Real.sq_sqrt (Finset.sum_nonneg fun c _ => sq_nonneg _)
    have hr := h r
    unfold radial at hr ⊢
    rw [List.filter_cons]
    split
    · rw [List.map_cons, List.sum_cons, add_mul]
      refine (abs_add_le _ _).trans (add_le_add ?_ hr)
      rw [abs_mul, abs_of_pos (Real.exp_pos _), ← hn]
      refine mul_le_mul_of_nonneg_left (Real.exp_le_exp.2 ?_) (abs_nonneg _)
      nlinarith [hp p List.mem_cons_self, sq_nonneg (Geometry.norm r)]
    · refine hr.trans (mul_le_mul_of_nonneg_right ?_ (Real.exp_pos _).le)
      linarith [abs_nonneg (p.2.getD w 0)]

/-- **C101** (Bloch sums).  For positive exponents the sum of every orbital over every lattice converges absolutely at every
position, so that C99's bound on the truncation error tends to zero. -/
theorem c101_summable (L : Matrix (Fin 3) (Fin 3) ℝ) (hL : IsUnit L.det) (sh : Shell) (w : ℕ) (m : ℤ) (hm : m ∈ order sh.l) (A : Vec 3)
    (alpha : ℝ) (ha : 0 < alpha) (hp : ∀ p ∈ sh.prims, alpha ≤ p.1) (x : Vec 3) :
    Summable fun k : Fin 3 → ℤ =>
      MvPolynomial.eval (fun c => (x c - translation L k c) - A c) (solid sh.l m) * radial 1e-12 sh.prims w (fun c => (x c - translation L k c) - A c) := by
  obtain ⟨B, hB, h1⟩ := homogeneous_bound _ _ (c101_laplace sh.l m (order_mem _ _ hm)).2
  obtain ⟨D, hD, h2⟩ := radial_bound 1e-12 alpha sh.prims hp w
  have := Scf.Props.c99_gaussian L hL (fun r => MvPolynomial.eval r (solid sh.l m) * radial 1e-12 sh.prims w r) alpha (B * D) sh.l ha (fun r => by
    rw [abs_mul]
    have h0 : 0 ≤ Geometry.norm r := Real.sqrt_nonneg _
    calc _ ≤ (B * Geometry.norm r ^ sh.l) * (D * Real.exp (-alpha * Geometry.norm r ^ 2)) :=
          mul_le_mul (h1 r) (h2 r) (abs_nonneg _) (by positivity)
      _ = _ := by ring) (fun c => x c - A c)
  refine this.congr fun k => ?_
  have : (fun c => x c - translation L k c - A c) = fun c => x c - A c - translation L k c := by
    funext c; ring
  simp only [this]

/-! ### Example -/

/-- A hydrogen-like basis: one s shell with two exponents in two contractions, the second of which uses one exponent only. -/
noncomputable def tinyS : Shell := ⟨0, [(2, [1, 0]), (1, [3, 5])]⟩
/-- A p shell. -/
noncomputable def tinyP : Shell := ⟨1, [(1, [1])]⟩

theorem tinyS_wf : WellFormed tinyS := by
  refine ⟨by simp [tinyS, Shell.nWeights], fun w hw => ?_⟩
  have hw' : w < 2 := by simpa [tinyS, Shell.nWeights] using hw
  interval_cases w
  · exact ⟨(2, [1, 0]), by simp [tinyS], by norm_num [List.getD]⟩
  · exact ⟨(1, [3, 5]), by simp [tinyS], by norm_num [List.getD]⟩

theorem tinyP_wf : WellFormed tinyP := by
  refine ⟨by simp [tinyP, Shell.nWeights], fun w hw => ?_⟩
  have hw' : w < 1 := by simpa [tinyP, Shell.nWeights] using hw
  interval_cases w
  exact ⟨(1, [1]), by simp [tinyP], by norm_num [List.getD]⟩

/-- The five orbitals of an atom at `(0, 0, 1)` with these shells, at `(3, 4, 1)`. -/
theorem c101_example : evaluate [([tinyS, tinyP], ![0, 0, 1])] ![3, 4, 1] =
    [Real.sqrt (1 / (4 * Real.pi)) * (Real.exp (-50) + 3 * Real.exp (-25)), Real.sqrt (1 / (4 * Real.pi)) * (5 * Real.exp (-25)),
      Real.sqrt (3 / (4 * Real.pi)) * 3 * Real.exp (-25), Real.sqrt (3 / (4 * Real.pi)) * 4 * Real.exp (-25),
      0] := by
  rw [c101_value _ (by
    intro a ha sh hsh
    simp only [List.mem_singleton] at ha
    subst ha
    simp only [List.mem_cons, List.not_mem_nil, or_false] at hsh
    rcases hsh with rfl | rfl
    · exact tinyS_wf
    · exact tinyP_wf)]
  set r : Vec 3 := fun c => (![3, 4, 1] : Vec 3) c - (![0, 0, 1] : Vec 3) c with hr
  have hs := (c101_shells r).1
  have hp := (c101_shells r).2
  have r0 : r 0 = 3 := by simp [hr]
  have r1 : r 1 = 4 := by simp [hr]
  have r2 : r 2 = 0 := by simp [hr]
  have hn : ∑ c, r c ^ 2 = 25 := by rw [Fin.sum_univ_three, r0, r1, r2]; norm_num
  have ra : radial 1e-12 tinyS.prims 0 r = Real.exp (-50) + 3 * Real.exp (-25) := by
    unfold radial; rw [hn]; norm_num [tinyS, List.filter_cons]
  have rb : radial 1e-12 tinyS.prims 1 r = 5 * Real.exp (-25) := by
    unfold radial; rw [hn]; norm_num [tinyS, List.filter_cons]
  have rc : radial 1e-12 tinyP.prims 0 r = Real.exp (-25) := by
    unfold radial; rw [hn]; norm_num [tinyP, List.filter_cons]
  have hmap : ∀ (l : ℕ) (q : ℝ), (order l).map (fun m => MvPolynomial.eval r (solid l m) * q) = ((order l).map fun m => MvPolynomial.eval r (solid l m)).map (· * q) := by
    intro l q; rw [List.map_map]; rfl
  have er : (fun c => (![3, 4, 1] : Vec 3) c - (![0, 0, 1] : Vec 3) c) = r := rfl
  have n1 : tinyS.nWeights = 2 := by simp [tinyS, Shell.nWeights]
  have n2 : tinyP.nWeights = 1 := by simp [tinyP, Shell.nWeights]
  simp only [List.flatMap_cons, List.flatMap_nil, List.append_nil, n1, n2, show List.range 2 = [0, 1] from rfl, show List.range 1 = [0] from rfl, er, hmap,
    ra, rb, rc, show tinyS.l = 0 from rfl, show tinyP.l = 1 from rfl, hs, hp, show List.finRange 3 = [0, 1, 2] from rfl, List.map_cons, List.map_nil,
    r0, r1, r2, List.cons_append, List.nil_append, mul_zero, zero_mul]

end Jaqmc.Gto.Props
