import Verif.Props.Wavefunction
import Mathlib.Analysis.SpecialFunctions.Sqrt
import Mathlib.Analysis.Calculus.Deriv.Inv
/-!
C75: the electron-electron cusp of the Jastrow factor.
-/
namespace Jaqmc.Wf.Props
open Geometry Matrix Spec
open scoped Classical BigOperators

variable {nu nd d : ℕ}

/-- The cusp constant and the parameter of a pair: 1/4 for equal spins, 1/2 for opposite spins. -/
noncomputable def pairCusp (p q : ℝ) (k l : Fin (nu + nd)) (x : ℝ) : ℝ :=
  if ((k : ℕ) < nu ↔ (l : ℕ) < nu) then cusp x 0.25 p else cusp x 0.5 q

theorem jastrow_pairs (p q : ℝ) (D : Fin (nu + nd) → Fin (nu + nd) → ℝ) :
    jastrow p q D = ∑ k, ∑ l, if k < l then pairCusp p q k l (D k l) else 0 := by
  unfold jastrow triuSum pairCusp
  simp only [Fin.sum_univ_add]
  have h1 : ∀ (k : Fin nu) (l : Fin nd), Fin.castAdd nd k < Fin.natAdd nu l := fun k l => by
    rw [Fin.lt_def]; simp; omega
  have h2 : ∀ (k : Fin nu) (l : Fin nd), ¬ Fin.natAdd nu l < Fin.castAdd nd k := fun k l => by
    rw [Fin.lt_def]; simp; omega
  have h3 : ∀ k l : Fin nu, (Fin.castAdd nd k < Fin.castAdd nd l) = (k < l) := fun k l => by
    rw [Fin.lt_def, Fin.lt_def]; simp
  have h4 : ∀ k l : Fin nd, (Fin.natAdd nu k < Fin.natAdd nu l) = (k < l) := fun k l => by
    rw [Fin.lt_def, Fin.lt_def]; simp
  simp only [h1, h2, h3, h4]
  simp [Finset.sum_add_distrib]
  ring

theorem within_ne {n : ℕ} (r : Fin n → Vec d) (k l : Fin n) (h : k ≠ l) : (pairWithin r).2 k l = Geometry.norm (fun c => r k c - r l c) := by
  simp [pairWithin, h]

theorem norm_sub_comm' (a b : Vec d) : Geometry.norm (fun c => a c - b c) = Geometry.norm (fun c => b c - a c) := by
  unfold Geometry.norm
  congr 1
  exact Finset.sum_congr rfl fun c _ => by ring

theorem cusp_deriv (c α x : ℝ) (h : α + x ≠ 0) : HasDerivAt (fun x => cusp x c α) (c * α ^ 2 / (α + x) ^ 2) x := by
  unfold cusp
  have h1 : HasDerivAt (fun x => α + x) 1 x := (hasDerivAt_id x).const_add α
  have h2 := (h1.fun_inv h).const_mul (-(c * α ^ 2))
  simp only [← div_eq_mul_inv] at h2
  refine h2.congr_deriv ?_
  ring

/-- The distance to a fixed point elsewhere, along a line. -/
theorem norm_deriv (a v : Vec d) (ε : ℝ) (ha : Geometry.norm a ≠ 0) :
    HasDerivAt (fun t : ℝ => Geometry.norm (fun c => a c + t * (ε * v c))) (ε * ((∑ c, a c * v c) / Geometry.norm a)) 0 := by
  unfold Geometry.norm at ha ⊢
  have h1 : HasDerivAt (fun t : ℝ => ∑ c, (a c + t * (ε * v c)) ^ 2) (∑ c, 2 * a c * (ε * v c)) 0 := by
    refine HasDerivAt.fun_sum fun c _ => ?_
    have := (((hasDerivAt_id (0 : ℝ)).mul_const (ε * v c)).const_add (a c)).fun_pow 2
    simpa using this
  have h0 : ∑ c, (a c + 0 * (ε * v c)) ^ 2 ≠ 0 := by
    simp only [zero_mul, add_zero]
    intro h
    exact ha (by rw [h, Real.sqrt_zero])
  have h2 := h1.sqrt h0
  refine h2.congr_deriv ?_
  simp only [zero_mul, add_zero]
  have : ∑ c, 2 * a c * (ε * v c) = 2 * (ε * ∑ c, a c * v c) := by
    rw [Finset.mul_sum, Finset.mul_sum]
    exact Finset.sum_congr rfl fun c _ => by ring
  rw [this]
  field_simp

/-- C75: with positive parameters, when electron `i` meets electron `j` (and no other), the slope of the Jastrow exponent in the
position of electron `i` jumps: in direction `v` it is `c + g`, in direction `-v` it is `c - g`, with `g` from the smooth
part and the cusp `c` of Kato's condition, 1/4 for equal and 1/2 for opposite spins. -/
theorem c75_cusp (p q : ℝ) (hp : 0 < p) (hq : 0 < q) (r : Fin (nu + nd) → Vec d) (i j : Fin (nu + nd)) (hij : i ≠ j) (hmeet : r i = r j)
    (hsep : ∀ k, k ≠ i → k ≠ j → r k ≠ r i) (v : Vec d) (hv : ∑ c, v c ^ 2 = 1) :
    ∃ g : ℝ, ∀ ε : ℝ, ε = 1 ∨ ε = -1 →
      HasDerivWithinAt (fun t : ℝ => jastrow p q (pairWithin (Function.update r i (fun c => r i c + t * (ε * v c)))).2)
        ((if ((i : ℕ) < nu ↔ (j : ℕ) < nu) then 1 / 4 else 1 / 2) + ε * g) (Set.Ici 0) 0 := by
  -- the slope of each pair
  have hterm : ∀ k l : Fin (nu + nd), k < l → ∃ g : ℝ, ∀ ε : ℝ, ε = 1 ∨ ε = -1 →
      HasDerivWithinAt (fun t : ℝ => pairCusp p q k l ((pairWithin (Function.update r i (fun c => r i c + t * (ε * v c)))).2 k l))
        ((if (k = i ∧ l = j) ∨ (k = j ∧ l = i) then (if ((i : ℕ) < nu ↔ (j : ℕ) < nu) then 1 / 4 else 1 / 2) else 0) + ε * g)
        (Set.Ici 0) 0 := by
    intro k l hkl
    have hne : k ≠ l := ne_of_lt hkl
    -- the distance of the pair
    have hpos : ∀ x : ℝ, 0 ≤ x → p + x ≠ 0 ∧ q + x ≠ 0 := fun x hx => ⟨by positivity, by positivity⟩
    have hnn : ∀ a : Vec d, 0 ≤ Geometry.norm a := fun a => Real.sqrt_nonneg _
    have hpc : ∀ x : ℝ, 0 ≤ x → ∃ s : ℝ, HasDerivAt (pairCusp p q k l) s x ∧
        (x = 0 → s = if ((k : ℕ) < nu ↔ (l : ℕ) < nu) then 1 / 4 else 1 / 2) := by
      intro x hx
      unfold pairCusp
      by_cases hs : ((k : ℕ) < nu ↔ (l : ℕ) < nu)
      · refine ⟨_, by simpa only [hs, if_true] using cusp_deriv 0.25 p x (hpos x hx).1, ?_⟩
        rintro rfl
        simp only [hs, if_true, add_zero]
        field_simp
        norm_num
      · refine ⟨_, by simpa only [hs, if_false] using cusp_deriv 0.5 q x (hpos x hx).2, ?_⟩
        rintro rfl
        simp only [hs, if_false, add_zero]
        field_simp
        norm_num
    simp only [within_ne _ k l hne]
    -- the moving electron against another one
    have moving : ∀ m : Fin (nu + nd), m ≠ i → ∃ g : ℝ, ∀ ε : ℝ, ε = 1 ∨ ε = -1 →
        HasDerivWithinAt (fun t : ℝ => pairCusp p q k l (Geometry.norm (fun c => (r i c + t * (ε * v c)) - r m c)))
          ((if m = j then (if ((k : ℕ) < nu ↔ (l : ℕ) < nu) then 1 / 4 else 1 / 2) else 0) + ε * g) (Set.Ici 0) 0 := by
      intro m hm
      by_cases hmj : m = j
      · subst hmj
        obtain ⟨s, hs, hs0⟩ := hpc 0 le_rfl
        refine ⟨0, fun ε hε => ?_⟩
        rw [if_pos rfl, mul_zero, add_zero, ← hs0 rfl]
        refine (hs.hasDerivWithinAt (s := Set.Ici 0)).congr (fun t ht => ?_) ?_
        · congr 1
          unfold Geometry.norm
          have : ∑ c, (r i c + t * (ε * v c) - r m c) ^ 2 = t ^ 2 := by
            rw [← hmeet]
            have hε2 : ε ^ 2 = 1 := by rcases hε with rfl | rfl <;> norm_num
            calc ∑ c, (r i c + t * (ε * v c) - r i c) ^ 2 = ∑ c, t ^ 2 * ε ^ 2 * v c ^ 2 := Finset.sum_congr rfl fun c _ => by ring
              _ = t ^ 2 := by rw [← Finset.mul_sum, hv, hε2]; ring
          rw [this, Real.sqrt_sq ht]
        · congr 1
          unfold Geometry.norm
          rw [← hmeet]
          simp
      · have hsepm := hsep m hm hmj
        have hn0 : Geometry.norm (fun c => r i c - r m c) ≠ 0 := by
          unfold Geometry.norm
          rw [Real.sqrt_ne_zero']
          obtain ⟨c, hc⟩ := Function.ne_iff.mp hsepm
          have : r i c - r m c ≠ 0 := sub_ne_zero.mpr fun h => hc h.symm
          exact Finset.sum_pos' (fun _ _ => sq_nonneg _) ⟨c, Finset.mem_univ _, by positivity⟩
        obtain ⟨s, hs, -⟩ := hpc (Geometry.norm (fun c => r i c - r m c)) (hnn _)
        refine ⟨s * ((∑ c, (r i c - r m c) * v c) / Geometry.norm (fun c => r i c - r m c)), fun ε _ => ?_⟩
        have hd := norm_deriv (fun c => r i c - r m c) v ε hn0
        have e0 : Geometry.norm (fun c => (r i c - r m c) + 0 * (ε * v c)) = Geometry.norm (fun c => r i c - r m c) := by simp
        have hcomp := HasDerivAt.comp (0 : ℝ) (by rw [e0]; exact hs) hd
        rw [if_neg hmj]
        refine (hcomp.congr_deriv (by ring)).hasDerivWithinAt.congr (fun t _ => ?_) ?_
        · simp only [Function.comp]
          congr 2
          funext c
          ring
        · simp only [Function.comp]
          congr 2
          funext c
          ring
    by_cases hki : k = i
    · subst hki
      obtain ⟨g, hg⟩ := moving l hne.symm
      refine ⟨g, fun ε hε => ?_⟩
      have := hg ε hε
      by_cases hlj : l = j
      · subst hlj
        simpa [hne, hne.symm, Function.update_of_ne hne.symm] using this
      · simpa [hlj, hij, Function.update_of_ne hne.symm] using this
    · by_cases hli : l = i
      · subst hli
        obtain ⟨g, hg⟩ := moving k hne
        refine ⟨g, fun ε hε => ?_⟩
        have := hg ε hε
        simp only [norm_sub_comm' _ (r k)] at this
        by_cases hkj : k = j
        · subst hkj
          have hcomm : (((k : ℕ) < nu ↔ (l : ℕ) < nu)) = (((l : ℕ) < nu ↔ (k : ℕ) < nu)) := propext ⟨Iff.symm, Iff.symm⟩
          simp only [hcomm] at this
          simpa [hne, Function.update_of_ne hne] using this
        · simpa [hkj, hki, Function.update_of_ne hne] using this
      · refine ⟨0, fun ε _ => ?_⟩
        simp only [Function.update_of_ne hki, Function.update_of_ne hli]
        simpa [hki, hli] using hasDerivWithinAt_const (0 : ℝ) (Set.Ici 0) (pairCusp p q k l (Geometry.norm fun c => r k c - r l c))
  choose! G hG using hterm
  refine ⟨∑ k, ∑ l, if k < l then G k l else 0, fun ε hε => ?_⟩
  simp only [jastrow_pairs]
  have hsum : HasDerivWithinAt (fun t : ℝ => ∑ k, ∑ l, if k < l then
        pairCusp p q k l ((pairWithin (Function.update r i (fun c => r i c + t * (ε * v c)))).2 k l) else 0)
      (∑ k, ∑ l, if k < l then ((if (k = i ∧ l = j) ∨ (k = j ∧ l = i) then
        (if ((i : ℕ) < nu ↔ (j : ℕ) < nu) then 1 / 4 else 1 / 2) else 0) + ε * G k l) else 0) (Set.Ici 0) 0 := by
    refine HasDerivWithinAt.fun_sum fun k _ => HasDerivWithinAt.fun_sum fun l _ => ?_
    by_cases h : k < l
    · simpa only [h, if_true] using hG k l h ε hε
    · simpa only [h, if_false] using hasDerivWithinAt_const (0 : ℝ) (Set.Ici 0) (0 : ℝ)
  refine hsum.congr_deriv ?_
  generalize (if ((i : ℕ) < nu ↔ (j : ℕ) < nu) then (1 / 4 : ℝ) else 1 / 2) = C
  have split : ∀ k l : Fin (nu + nd), (if k < l then ((if (k = i ∧ l = j) ∨ (k = j ∧ l = i) then C else 0) + ε * G k l) else 0)
      = (if (k = i ∧ l = j ∧ i < j) ∨ (k = j ∧ l = i ∧ j < i) then C else 0) + ε * (if k < l then G k l else 0) := by
    intro k l
    by_cases h : k < l
    · by_cases h1 : k = i ∧ l = j
      · obtain ⟨rfl, rfl⟩ := h1
        simp [h, hij]
      · by_cases h2 : k = j ∧ l = i
        · obtain ⟨rfl, rfl⟩ := h2
          simp [h, hij]
        · have h3 : ¬ ((k = i ∧ l = j ∧ i < j) ∨ (k = j ∧ l = i ∧ j < i)) := by tauto
          have h4 : ¬ ((k = i ∧ l = j) ∨ (k = j ∧ l = i)) := by tauto
          simp only [h, if_true, if_neg h3, if_neg h4]
    · have h3 : ¬ ((k = i ∧ l = j ∧ i < j) ∨ (k = j ∧ l = i ∧ j < i)) := by
        rintro (⟨rfl, rfl, h'⟩ | ⟨rfl, rfl, h'⟩) <;> exact h h'
      simp only [h, if_false, if_neg h3]
      ring
  simp only [split, Finset.sum_add_distrib, ← Finset.mul_sum]
  congr 1
  rcases lt_or_gt_of_ne hij with h | h
  · have : ∀ k l : Fin (nu + nd), (if (k = i ∧ l = j ∧ i < j) ∨ (k = j ∧ l = i ∧ j < i) then C else 0) = if k = i then (if l = j then C else 0) else 0 := by
      intro k l
      simp only [h, not_lt.mpr h.le, and_true, and_false, or_false]
      by_cases a : k = i <;> by_cases b : l = j <;> simp [a, b]
    simp [this]
  · have : ∀ k l : Fin (nu + nd), (if (k = i ∧ l = j ∧ i < j) ∨ (k = j ∧ l = i ∧ j < i) then C else 0) = if k = j then (if l = i then C else 0) else 0 := by
      intro k l
      have h' : j < i := h
      simp only [h', not_lt.mpr h'.le, and_true, and_false, false_or]
      by_cases a : k = j <;> by_cases b : l = i <;> simp [a, b]
    simp [this]

/-- C75, a concrete case: two electrons of opposite spin meeting at the origin, with the initial parameters. -/
example : ∃ g : ℝ, ∀ ε : ℝ, ε = 1 ∨ ε = -1 →
    HasDerivWithinAt (fun t : ℝ => jastrow (nu := 1) (nd := 1) 1 1 (pairWithin (Function.update (fun _ => ![0, 0, 0]) 0
      (fun c => ![(0 : ℝ), 0, 0] c + t * (ε * ![1, 0, 0] c)))).2) (1 / 2 + ε * g) (Set.Ici 0) 0 := by
  have := c75_cusp (nu := 1) (nd := 1) 1 1 one_pos one_pos (fun _ => ![0, 0, 0]) 0 1 (by decide) rfl
    (by intro k h0 h1; exfalso; revert h0 h1; revert k; decide) ![1, 0, 0] (by simp [Fin.sum_univ_three])
  simpa using this

/-- C75 (negative parameters): the parameters are not kept positive by the optimizer.  With a negative one the exponent is
unbounded: there are configurations of two separate electrons with an arbitrarily large Jastrow factor. -/
theorem c75_negative (p q : ℝ) (hq : q < 0) (B : ℝ) :
    ∃ r : Fin (1 + 1) → Vec 3, r 0 ≠ r 1 ∧ B < jastrow (nu := 1) (nd := 1) p q (pairWithin r).2 := by
  -- electrons at distance `-q - δ` with a small `δ`
  set C : ℝ := |B| + 1 with hC
  have hCpos : 0 < C := by positivity
  obtain ⟨δ, hδ0, hδq, hδB⟩ : ∃ δ : ℝ, 0 < δ ∧ δ < -q ∧ δ * C ≤ 0.5 * q ^ 2 := by
    refine ⟨min (-q / 2) (0.5 * q ^ 2 / C), lt_min (by linarith) (by have := sq_pos_of_neg hq; positivity), lt_of_le_of_lt (min_le_left _ _) (by linarith), ?_⟩
    calc min (-q / 2) (0.5 * q ^ 2 / C) * C ≤ (0.5 * q ^ 2 / C) * C := mul_le_mul_of_nonneg_right (min_le_right _ _) hCpos.le
      _ = 0.5 * q ^ 2 := by field_simp
  refine ⟨![![0, 0, 0], ![-q - δ, 0, 0]], ?_, ?_⟩
  · intro h
    have := congrFun h 0
    simp at this
    linarith
  · have hD : (pairWithin (n := 1 + 1) ![![0, 0, 0], ![-q - δ, 0, 0]]).2 0 1 = -q - δ := by
      rw [within_ne _ _ _ (by decide)]
      simp [Geometry.norm, Fin.sum_univ_three]
      rw [show δ + q = -(-q - δ) by ring, neg_sq, Real.sqrt_sq (by linarith)]
    have hJ : jastrow (nu := 1) (nd := 1) p q (pairWithin (n := 1 + 1) ![![0, 0, 0], ![-q - δ, 0, 0]]).2 = 0.5 * q ^ 2 / δ := by
      unfold jastrow triuSum
      simp only [Finset.univ_unique, Finset.sum_singleton, lt_irrefl, if_false, zero_add]
      change cusp ((pairWithin (n := 1 + 1) ![![0, 0, 0], ![-q - δ, 0, 0]]).2 0 1) 0.5 q = _
      rw [hD]
      unfold cusp
      rw [show q + (-q - δ) = -δ by ring, neg_div_neg_eq]
    rw [hJ, lt_div_iff₀ hδ0]
    have : B * δ < C * δ := mul_lt_mul_of_pos_right (by rw [hC]; have := le_abs_self B; linarith) hδ0
    linarith

/-- C63: a Jastrow factor `J` multiplies the value of the wavefunction by `exp J`. -/
theorem c63_jastrow {k : ℕ} (o : RealOut k) (j : ℝ) :
    value (addJastrow o j).signLogpsi (addJastrow o j).logpsi = (value o.signLogpsi o.logpsi).map (· * Real.exp j) := by
  unfold addJastrow
  dsimp only
  rcases o with ⟨s, l, a, b⟩
  dsimp only
  rcases s with _ | s <;> rcases l with _ | l
  · rfl
  · rcases l with _ | l <;> rfl
  · rfl
  · rcases l with _ | l
    · change some (0 : ℝ) = some (0 * Real.exp j)
      simp
    · change some (s * Real.exp (l + j)) = some (s * Real.exp l * Real.exp j)
      rw [Real.exp_add, mul_assoc]

end Jaqmc.Wf.Props
