import Verif.Props.Scf
import Mathlib.Algebra.Module.ZLattice.Summable
import Mathlib.Analysis.SpecialFunctions.Exp
import Mathlib.Topology.Algebra.InfiniteSum.NatInt
/-! C99: how far the truncated lattice sums are from the exact Bloch orbitals. -/
namespace Jaqmc.Scf.Props
open Geometry Matrix Spec
open Geometry.Spec (translation)
open scoped Classical

variable {nk nao : ℕ}

theorem translation_add (L : Matrix (Fin 3) (Fin 3) ℝ) (m m' : Fin 3 → ℤ) (c : Fin 3) :
    translation L (m + m') c = translation L m c + translation L m' c := by
  simp only [translation, Pi.add_apply, Int.cast_add, add_mul, Finset.sum_add_distrib]

/-- The Bloch sum over the whole lattice is a Bloch function. -/
theorem c99_lattice_bloch (L : Matrix (Fin 3) (Fin 3) ℝ) (chi : Vec 3 → ℝ) (k : Vec 3) : Bloch L k (latticeSum L chi k) := by
  intro r m
  unfold latticeSum
  rw [← tsum_mul_left, ← (Equiv.addRight m).tsum_eq]
  refine tsum_congr fun m' => ?_
  have e1 : ∑ c, k c * translation L (m' + m) c = ∑ c, k c * translation L m' c + ∑ c, k c * translation L m c := by
    rw [← Finset.sum_add_distrib]
    exact Finset.sum_congr rfl fun c _ => by rw [translation_add]; ring
  have e2 : (fun c => r c + translation L m c - translation L (m' + m) c) = fun c => r c - translation L m' c := by
    funext c; rw [translation_add]; ring
  simp only [Equiv.coe_addRight]
  rw [e1, e2]
  push_cast
  rw [mul_add, Complex.exp_add]
  ring

theorem blochSum_eq (L : Matrix (Fin 3) (Fin 3) ℝ) (I : List (Fin 3 → ℤ)) (hI : I.Nodup) (chi : Vec 3 → ℝ) (k r : Vec 3) :
    blochSum (I.map (translation L)) chi k r = ∑ m ∈ I.toFinset,
      Complex.exp (Complex.I * ((∑ c, k c * translation L m c : ℝ) : ℂ)) * ((chi (fun c => r c - translation L m c) : ℝ) : ℂ) := by
  rw [List.sum_toFinset _ hI]
  simp only [blochSum, List.map_map, cis, dotK]
  rfl

/-- **C99** (truncation).  With the image list `I` (distinct lattice vectors) and a localised orbital whose values on the
lattice are summable, the atomic Bloch orbital used differs from the exact one by at most the sum of the orbital over
the omitted images, taken at the wrapped position: the error is the same at all lattice translates of a point, however
far from the origin. -/
theorem c99_truncation (S : Periodic nk nao) (hL : IsUnit S.latvec.det) (I : List (Fin 3 → ℤ)) (hI : I.Nodup)
    (hS : S.images = I.map (translation S.latvec)) (k : Fin nk) (a : Fin nao) (p : Vec 3)
    (hsum : Summable fun m : Fin 3 → ℤ => S.chi a (fun c => wrap S.latvec p c - translation S.latvec m c)) :
    ‖S.aos k p a - latticeSum S.latvec (S.chi a) (S.kpts k) p‖ ≤
      ∑' m : {m : Fin 3 → ℤ // m ∉ I}, |S.chi a (fun c => wrap S.latvec p c - translation S.latvec m.1 c)| := by
  obtain ⟨m0, hm0⟩ := (Geometry.Props.c30_wrap S.latvec hL p).2.1
  set w := wrap S.latvec p with hw
  let t : (Fin 3 → ℤ) → ℂ := fun m => Complex.exp (Complex.I * ((∑ c, S.kpts k c * translation S.latvec m c : ℝ) : ℂ))
    * ((S.chi a (fun c => w c - translation S.latvec m c) : ℝ) : ℂ)
  have hn : ∀ m, ‖t m‖ = |S.chi a (fun c => w c - translation S.latvec m c)| := fun m => by
    simp only [t, norm_mul, Complex.norm_real, Real.norm_eq_abs]
    rw [mul_comm Complex.I, Complex.norm_exp_ofReal_mul_I, one_mul]
  have hts : Summable t := by
    refine Summable.of_norm ?_
    simp only [hn]
    exact hsum.abs
  have hp : p = fun c => w c + translation S.latvec (-m0) c := by
    funext c
    have h1 := hm0 c
    have h2 : translation S.latvec (-m0) c = -translation S.latvec m0 c := by
      simp [translation]
    rw [h2, h1]; ring
  have e1 : latticeSum S.latvec (S.chi a) (S.kpts k) p
      = cis (dotK (S.kpts k) (translation S.latvec (-m0))) * ∑' m, t m := by
    conv_lhs => rw [hp]
    exact c99_lattice_bloch S.latvec (S.chi a) (S.kpts k) w (-m0)
  have e2 : S.aos k p a = cis (dotK (S.kpts k) (translation S.latvec (-m0))) * ∑ m ∈ I.toFinset, t m := by
    simp only [Periodic.aos]
    rw [← hw, hS, blochSum_eq _ _ hI, mul_comm]
    congr 3
    funext c
    have : p c = w c + translation S.latvec (-m0) c := congrFun hp c
    linarith
  rw [e1, e2, ← mul_sub, norm_mul, norm_cis, one_mul, ← hts.sum_add_tsum_subtype_compl I.toFinset]
  rw [sub_add_cancel_left, norm_neg]
  have hsub : Summable fun m : {m : Fin 3 → ℤ // m ∉ I.toFinset} => ‖t m‖ := hts.norm.subtype _
  refine (norm_tsum_le_tsum_norm hsub).trans (le_of_eq ?_)
  simp only [hn]
  refine (Equiv.subtypeEquivRight (fun m => by simp)).tsum_eq (fun m : {m : Fin 3 → ℤ // m ∉ I} =>
    |S.chi a (fun c => w c - translation S.latvec m.1 c)|)

/-- The lattice as a `ℤ`-lattice. -/
theorem summable_lattice (L : Matrix (Fin 3) (Fin 3) ℝ) (hL : IsUnit L.det) (chi : Vec 3 → ℝ) (C : ℝ)
    (hC : ∀ x : Vec 3, |chi x| * ‖x‖ ^ 4 ≤ C) (w : Vec 3) :
    Summable fun m : Fin 3 → ℤ => chi (fun c => w c - translation L m c) := by
  have hli : LinearIndependent ℝ L.row := Matrix.linearIndependent_rows_iff_isUnit.2 ((Matrix.isUnit_iff_isUnit_det L).2 hL)
  let b : Module.Basis (Fin 3) ℝ (Fin 3 → ℝ) := basisOfLinearIndependentOfCardEqFinrank hli (by simp)
  have hb : ∀ i, b i = L i := fun i => by simp [b]; rfl
  let Λ : Submodule ℤ (Fin 3 → ℝ) := Submodule.span ℤ (Set.range b)
  have hfin : Module.finrank ℤ Λ = 3 := by rw [ZLattice.rank ℝ Λ]; simp
  let f : (Fin 3 → ℤ) → Λ := fun m => ⟨∑ i, m i • b i, Submodule.sum_mem _ fun i _ => Submodule.smul_mem _ _ (Submodule.subset_span ⟨i, rfl⟩)⟩
  have hf : ∀ m, ((f m : Λ) : Fin 3 → ℝ) = translation L m := by
    intro m
    funext c
    simp [f, translation, hb]
  have hinj : Function.Injective f := by
    intro m m' h
    have h1 : ∑ i, (m i : ℝ) • b i = ∑ i, (m' i : ℝ) • b i := by
      have := congrArg (fun z : Λ => (z : Fin 3 → ℝ)) h
      simp only [Int.cast_smul_eq_zsmul]
      exact this
    have h2 : ∑ i, ((m i : ℝ) - m' i) • b i = 0 := by
      simp only [sub_smul, Finset.sum_sub_distrib, h1, sub_self]
    have h3 := Fintype.linearIndependent_iff.1 b.linearIndependent _ h2
    funext i
    have := h3 i
    exact_mod_cast sub_eq_zero.1 this
  have hs := (ZLattice.summable_norm_sub_zpow Λ (-4) (by rw [hfin]; norm_num) w).comp_injective hinj
  have hs' : Summable fun m => |C| * ‖((f m : Λ) : Fin 3 → ℝ) - w‖ ^ (-4 : ℤ) := hs.mul_left |C|
  refine Summable.of_norm_bounded_eventually hs' ?_
  have hfinite : {m | ((f m : Λ) : Fin 3 → ℝ) = w}.Finite := by
    refine Set.Subsingleton.finite fun m hm m' hm' => hinj (Subtype.ext (hm.trans hm'.symm))
  rw [Filter.eventually_cofinite]
  refine hfinite.subset fun m hm => ?_
  by_contra hne
  refine hm ?_
  have hne' : ((f m : Λ) : Fin 3 → ℝ) - w ≠ 0 := sub_ne_zero.2 hne
  have hx : (fun c => w c - translation L m c) = -(((f m : Λ) : Fin 3 → ℝ) - w) := by
    funext c; rw [hf]; simp
  rw [hx, Real.norm_eq_abs]
  have h4 := hC (-(((f m : Λ) : Fin 3 → ℝ) - w))
  rw [norm_neg] at h4
  have hpos : 0 < ‖((f m : Λ) : Fin 3 → ℝ) - w‖ := norm_pos_iff.2 hne'
  rw [zpow_neg, ← div_eq_mul_inv, le_div_iff₀ (by positivity)]
  exact h4.trans (le_abs_self C)

/-- A Gaussian times a polynomial falls off fast enough: the truncation error of `c99_truncation` is the remainder of a
convergent series, for every cell, position, exponent and angular momentum. -/
theorem c99_gaussian (L : Matrix (Fin 3) (Fin 3) ℝ) (hL : IsUnit L.det) (chi : Vec 3 → ℝ) (alpha A : ℝ) (l : ℕ) (ha : 0 < alpha)
    (hchi : ∀ x, |chi x| ≤ A * Geometry.norm x ^ l * Real.exp (-alpha * Geometry.norm x ^ 2)) (w : Vec 3) :
    Summable fun m : Fin 3 → ℤ => chi (fun c => w c - translation L m c) := by
  obtain ⟨M, hM⟩ : ∃ M : ℝ, ∀ t : ℝ, 0 ≤ t → t ^ (l + 4) * Real.exp (-alpha * t ^ 2) ≤ M := by
    refine ⟨((l + 4).factorial : ℝ) / alpha ^ (l + 4) + 1, fun t ht => ?_⟩
    rcases le_total t 1 with h1 | h1
    · have : t ^ (l + 4) * Real.exp (-alpha * t ^ 2) ≤ 1 * 1 := by
        refine mul_le_mul (pow_le_one₀ ht h1) ?_ (Real.exp_pos _).le zero_le_one
        rw [Real.exp_le_one_iff]
        nlinarith [sq_nonneg t]
      have h2 : 0 ≤ ((l + 4).factorial : ℝ) / alpha ^ (l + 4) := by positivity
      linarith
    · have h2 : (alpha * t ^ 2) ^ (l + 4) / ((l + 4).factorial : ℝ) ≤ Real.exp (alpha * t ^ 2) :=
        Real.pow_div_factorial_le_exp _ (by positivity) _
      have h3 : t ^ (l + 4) ≤ (t ^ 2) ^ (l + 4) := pow_le_pow_left₀ ht (by nlinarith) _
      have h4 : t ^ (l + 4) ≤ ((l + 4).factorial : ℝ) / alpha ^ (l + 4) * Real.exp (alpha * t ^ 2) := by
        rw [div_le_iff₀ (by positivity), mul_pow] at h2
        rw [div_mul_eq_mul_div, le_div_iff₀ (by positivity)]
        nlinarith [pow_pos ha (l + 4)]
      have h5 : t ^ (l + 4) * Real.exp (-alpha * t ^ 2) ≤ ((l + 4).factorial : ℝ) / alpha ^ (l + 4) := by
        rw [neg_mul, Real.exp_neg, ← div_eq_mul_inv, div_le_iff₀ (Real.exp_pos _)]
        exact h4
      linarith
  have hn : ∀ x : Vec 3, ‖x‖ ≤ Geometry.norm x := by
    intro x
    have h0 : 0 ≤ Geometry.norm x := Real.sqrt_nonneg _
    rw [pi_norm_le_iff_of_nonneg h0]
    intro i
    rw [Real.norm_eq_abs]
    refine Real.le_sqrt_of_sq_le ?_
    rw [sq_abs]
    exact Finset.single_le_sum (f := fun i => x i ^ 2) (fun i _ => sq_nonneg _) (Finset.mem_univ i)
  refine summable_lattice L hL chi (|A| * M) (fun x => ?_) w
  have h0 : 0 ≤ Geometry.norm x := Real.sqrt_nonneg _
  have h1 : |chi x| ≤ |A| * (Geometry.norm x ^ l * Real.exp (-alpha * Geometry.norm x ^ 2)) := by
    refine (hchi x).trans ?_
    rw [mul_assoc]
    exact mul_le_mul_of_nonneg_right (le_abs_self A) (by positivity)
  calc |chi x| * ‖x‖ ^ 4 ≤ |A| * (Geometry.norm x ^ l * Real.exp (-alpha * Geometry.norm x ^ 2)) * Geometry.norm x ^ 4 :=
        mul_le_mul h1 (pow_le_pow_left₀ (norm_nonneg _) (hn x) 4) (by positivity) (by positivity)
    _ = |A| * (Geometry.norm x ^ (l + 4) * Real.exp (-alpha * Geometry.norm x ^ 2)) := by rw [pow_add]; ring
    _ ≤ |A| * M := mul_le_mul_of_nonneg_left (hM _ h0) (abs_nonneg A)

/-- **C99** (convergence).  The truncated Bloch orbital tends to the exact one as the image list grows. -/
theorem c99_converges (S : Periodic nk nao) (hL : IsUnit S.latvec.det) (k : Fin nk) (a : Fin nao) (p : Vec 3)
    (hsum : Summable fun m : Fin 3 → ℤ => S.chi a (fun c => wrap S.latvec p c - translation S.latvec m c)) (ε : ℝ) (hε : 0 < ε) :
    ∃ F : Finset (Fin 3 → ℤ), ∀ I : List (Fin 3 → ℤ), I.Nodup → (∀ m ∈ F, m ∈ I) →
      ‖({ S with images := I.map (translation S.latvec) } : Periodic nk nao).aos k p a
        - latticeSum S.latvec (S.chi a) (S.kpts k) p‖ < ε := by
  have ht := tendsto_tsum_compl_atTop_zero fun m : Fin 3 → ℤ => |S.chi a (fun c => wrap S.latvec p c - translation S.latvec m c)|
  rw [Metric.tendsto_atTop] at ht
  obtain ⟨F, hF⟩ := ht ε hε
  refine ⟨F, fun I hI hFI => ?_⟩
  have h1 := c99_truncation ({ S with images := I.map (translation S.latvec) } : Periodic nk nao) hL I hI rfl k a p hsum
  refine lt_of_le_of_lt h1 ?_
  have h2 := hF I.toFinset (fun m hm => List.mem_toFinset.2 (hFI m hm))
  rw [Real.dist_eq, sub_zero] at h2
  refine lt_of_le_of_lt (le_of_eq ?_) (lt_of_le_of_lt (le_abs_self _) h2)
  refine ((Equiv.subtypeEquivRight (fun m => by simp)).tsum_eq (fun m : {m : Fin 3 → ℤ // m ∉ I} =>
    |S.chi a (fun c => wrap S.latvec p c - translation S.latvec m.1 c)|)).symm

/-- The cubic cell of side 2 with one Gaussian. -/
noncomputable def cubic : Matrix (Fin 3) (Fin 3) ℝ := Matrix.diagonal fun _ => 2

/-- A Gaussian. -/
noncomputable def gauss (x : Vec 3) : ℝ := Real.exp (-(1 : ℝ) * Geometry.norm x ^ 2)

theorem cubic_unit : IsUnit cubic.det := by
  simp [cubic, Matrix.det_diagonal]

/-- **C99** is false of `PBCAtomicOrbitalEvaluator` on its own, although its documentation states it: the truncated sum is not
a Bloch function (here one image, a Gaussian and the Γ point). -/
theorem c99_evaluator_false : ¬ Bloch cubic (fun _ => 0) (blochSum [fun _ => 0] gauss (fun _ => 0)) := by
  intro h
  have h1 := h (fun _ => 0) (fun i => if i = 0 then 1 else 0)
  have ht : translation cubic (fun i => if i = 0 then 1 else 0) = fun c => if c = 0 then 2 else 0 := by
    funext c
    simp only [translation, cubic, Matrix.diagonal_apply]
    fin_cases c <;> simp
  rw [ht] at h1
  simp [blochSum, cis, dotK, gauss, Geometry.norm, Fin.sum_univ_three] at h1
  have h2 := congrArg (fun z : ℂ => ‖z‖) h1
  simp only [Complex.norm_exp] at h2
  norm_num at h2

/-- Non-vacuity of `c99_gaussian` and `c99_truncation`: the Gaussian on the cubic lattice is summable. -/
example (w : Vec 3) : Summable fun m : Fin 3 → ℤ => gauss (fun c => w c - translation cubic m c) :=
  c99_gaussian cubic cubic_unit gauss 1 1 0 one_pos (fun x => by
    rw [gauss, abs_of_pos (Real.exp_pos _)]; simp) w

end Jaqmc.Scf.Props
