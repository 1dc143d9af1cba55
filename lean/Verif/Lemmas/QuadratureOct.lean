import Verif.Lemmas.Quadrature
/-! The octahedral rules are exact up to their degree. -/
open MeasureTheory Set Metric

namespace Jaqmc.Ecp
open Spec Geometry

/-- The weighted sum of real values. -/
noncomputable def rsum (vs cs : List ℝ) : ℝ := (List.zipWith (· * ·) vs cs).sum

theorem rsum_append (v1 v2 c1 c2 : List ℝ) (h : v1.length = c1.length) : rsum (v1 ++ v2) (c1 ++ c2) = rsum v1 c1 + rsum v2 c2 := by
  simp [rsum, List.zipWith_append h]

theorem rsum_replicate (vs : List ℝ) (c : ℝ) : ∀ n, vs.length = n → rsum vs (List.replicate n c) = c * vs.sum := by
  induction vs with
  | nil => intro n h; simp [rsum]
  | cons v vs ih =>
    intro n h
    obtain ⟨m, rfl⟩ : ∃ m, n = m + 1 := ⟨n - 1, by simp at h; omega⟩
    have := ih m (by simpa using h)
    simp only [rsum] at this
    simp [rsum, List.replicate_succ, this]
    ring

/-- A monomial as a real function. -/
noncomputable def rmono (a : Fin 3 → ℕ) (u : Vec 3) : ℝ := u 0 ^ a 0 * u 1 ^ a 1 * u 2 ^ a 2

theorem mono_eq (a : Fin 3 → ℕ) (u : Vec 3) : mono a u = (rmono a u : ℂ) := by
  simp [mono, rmono, Fin.prod_univ_three]

theorem integrate_mono (q : Rule) (a : Fin 3 → ℕ) :
    q.integrate (q.pts.map (mono a)) = ((rsum (q.pts.map (rmono a)) q.coefs * 4 * Real.pi : ℝ) : ℂ) := by
  have : ∀ (l : List (Vec 3)) (c : List ℝ), (List.zipWith (fun (v : ℂ) (c : ℝ) => v * (c : ℂ)) (l.map (mono a)) c).sum =
      ((rsum (l.map (rmono a)) c : ℝ) : ℂ) := by
    intro l
    induction l with
    | nil => intro c; simp [rsum]
    | cons u l ih =>
      intro c
      cases c with
      | nil => simp [rsum]
      | cons c cs =>
        have := ih cs
        simp only [rsum] at this
        simp [rsum, this, mono_eq]
  simp only [Rule.integrate, this]
  push_cast
  rfl

/-- `x^a` summed over the signs of `x`. -/
noncomputable def sg (x : ℝ) (a : ℕ) : ℝ := if x ≠ 0 then x ^ a + (-x) ^ a else x ^ a

theorem sum_expand (x y z : ℝ) (a : Fin 3 → ℕ) :
    (((expandSign [x, y, z]).map toVec).map (rmono a)).sum = sg x (a 0) * sg y (a 1) * sg z (a 2) := by
  by_cases hx : x = 0 <;> by_cases hy : y = 0 <;> by_cases hz : z = 0 <;>
    simp [expandSign, sg, toVec, rmono, hx, hy, hz] <;> ring

theorem sg_zero (a : ℕ) : sg 0 a = if a = 0 then 1 else 0 := by simp [sg, zero_pow_eq]

theorem sg_odd (x : ℝ) (a : ℕ) (h : Odd a) : sg x a = 0 := by
  unfold sg
  split
  · rw [h.neg_pow]; ring
  · next hx => simp at hx; subst hx; exact zero_pow (by rintro rfl; simp at h)

theorem sg_even (x : ℝ) (hx : x ≠ 0) (i : ℕ) : sg x (2 * i) = 2 * (x ^ 2) ^ i := by
  simp [sg, hx, pow_mul]; ring

/-- The real moment: what `sphereIntegral` gives divided by `4π`. -/
noncomputable def moment (i j k : ℕ) : ℝ :=
  ((2 * i - 1).doubleFactorial * (2 * j - 1).doubleFactorial * (2 * k - 1).doubleFactorial : ℝ) / ((2 * (i + j + k) + 1).doubleFactorial : ℝ)

theorem sphereIntegral_even (a : Fin 3 → ℕ) (i j k : ℕ) (h0 : a 0 = 2 * i) (h1 : a 1 = 2 * j) (h2 : a 2 = 2 * k) :
    sphereIntegral (mono a) = ((moment i j k * 4 * Real.pi : ℝ) : ℂ) := by
  have h := sphere_even ![i, j, k]
  have e : a = fun n => 2 * ![i, j, k] n := by
    funext n; fin_cases n <;> simp [h0, h1, h2]
  unfold sphereIntegral mono
  rw [e]
  rw [h]
  congr 1
  simp [Fin.prod_univ_three, Fin.sum_univ_three, moment]
  ring

theorem sphereIntegral_odd (a : Fin 3 → ℕ) (j : Fin 3) (h : Odd (a j)) : sphereIntegral (mono a) = 0 := sphere_odd a j h

/-- What remains to be checked for a rule symmetric under sign changes. -/
theorem exact_even (q : Rule) (d : ℕ)
    (ho : ∀ a : Fin 3 → ℕ, ∑ k, a k ≤ d → (∃ j, Odd (a j)) → rsum (q.pts.map (rmono a)) q.coefs = 0)
    (he : ∀ i j k : ℕ, 2 * (i + j + k) ≤ d → rsum (q.pts.map (rmono ![2 * i, 2 * j, 2 * k])) q.coefs = moment i j k)
    (a : Fin 3 → ℕ) (ha : ∑ k, a k ≤ d) : q.integrate (q.pts.map (mono a)) = sphereIntegral (mono a) := by
  rw [integrate_mono]
  by_cases h : ∃ j, Odd (a j)
  · rw [ho a ha h]
    obtain ⟨j, hj⟩ := h
    rw [sphereIntegral_odd a j hj]
    simp
  · push Not at h
    have h' : ∀ j, Even (a j) := fun j => by simpa using h j
    obtain ⟨i, hi⟩ := (h' 0).two_dvd
    obtain ⟨j, hj⟩ := (h' 1).two_dvd
    obtain ⟨k, hk⟩ := (h' 2).two_dvd
    rw [sphereIntegral_even a i j k hi hj hk]
    have e : a = ![2 * i, 2 * j, 2 * k] := by
      funext n; fin_cases n <;> simp [hi, hj, hk]
    rw [e, he i j k]
    rw [Fin.sum_univ_three, hi, hj, hk] at ha
    omega

theorem sqrt_facts : (1 / Real.sqrt 2) ≠ 0 ∧ (1 / Real.sqrt 3) ≠ 0 ∧ (1 / Real.sqrt 11) ≠ 0 ∧ (3 / Real.sqrt 11) ≠ 0 := by
  refine ⟨?_, ?_, ?_, ?_⟩ <;> positivity

/-- The sums over the four families of points. -/
noncomputable def famA (a : Fin 3 → ℕ) : ℝ :=
  sg 1 (a 0) * sg 0 (a 1) * sg 0 (a 2) + sg 0 (a 0) * sg 1 (a 1) * sg 0 (a 2) + sg 0 (a 0) * sg 0 (a 1) * sg 1 (a 2)
noncomputable def famB (a : Fin 3 → ℕ) : ℝ :=
  let p := 1 / Real.sqrt 2
  sg p (a 0) * sg p (a 1) * sg 0 (a 2) + sg p (a 0) * sg 0 (a 1) * sg p (a 2) + sg 0 (a 0) * sg p (a 1) * sg p (a 2)
noncomputable def famC (a : Fin 3 → ℕ) : ℝ :=
  let q := 1 / Real.sqrt 3
  sg q (a 0) * sg q (a 1) * sg q (a 2)
noncomputable def famD (a : Fin 3 → ℕ) : ℝ :=
  let r := 1 / Real.sqrt 11
  let s := 3 / Real.sqrt 11
  sg r (a 0) * sg r (a 1) * sg s (a 2) + sg r (a 0) * sg s (a 1) * sg r (a 2) + sg s (a 0) * sg r (a 1) * sg r (a 2)

/-- The sums of the four rules. -/
noncomputable def octSum : ℕ → (Fin 3 → ℕ) → ℝ
  | 6, a => 1 / 6 * famA a
  | 18, a => 1 / 30 * famA a + 1 / 15 * famB a
  | 26, a => 1 / 21 * famA a + 4 / 105 * famB a + 27 / 840 * famC a
  | _, a => 4 / 315 * famA a + 64 / 2835 * famB a + 27 / 1280 * famC a + 14641 / 725760 * famD a

theorem oct_cases (n : ℕ) (q : Rule) (h : octahedron n = some q) :
    (∀ a, rsum (q.pts.map (rmono a)) q.coefs = octSum n a) ∧
    (n = 6 ∨ n = 18 ∨ n = 26 ∨ n = 50) := by
  obtain ⟨hp, hq, hr, hs⟩ := sqrt_facts
  have l1 : (expandSign [1, 0, 0]).length = 2 := by simp [expandSign]
  have l2 : (expandSign [0, 1, 0]).length = 2 := by simp [expandSign]
  have l3 : (expandSign [0, 0, 1]).length = 2 := by simp [expandSign]
  have l4 : (expandSign [1 / Real.sqrt 2, 1 / Real.sqrt 2, 0]).length = 4 := by simp [expandSign]
  have l5 : (expandSign [1 / Real.sqrt 2, 0, 1 / Real.sqrt 2]).length = 4 := by simp [expandSign]
  have l6 : (expandSign [0, 1 / Real.sqrt 2, 1 / Real.sqrt 2]).length = 4 := by simp [expandSign]
  have l7 : (expandSign [1 / Real.sqrt 3, 1 / Real.sqrt 3, 1 / Real.sqrt 3]).length = 8 := by simp [expandSign]
  have l8 : (expandSign [1 / Real.sqrt 11, 1 / Real.sqrt 11, 3 / Real.sqrt 11]).length = 8 := by simp [expandSign]
  have l9 : (expandSign [1 / Real.sqrt 11, 3 / Real.sqrt 11, 1 / Real.sqrt 11]).length = 8 := by simp [expandSign]
  have l10 : (expandSign [3 / Real.sqrt 11, 1 / Real.sqrt 11, 1 / Real.sqrt 11]).length = 8 := by simp [expandSign]
  unfold octahedron at h
  rw [Option.map_eq_some_iff] at h
  obtain ⟨c, hc, rfl⟩ := h
  unfold octCoefs at hc
  have hA : ∀ a w, rsum (((expandSign [1, 0, 0] ++ expandSign [0, 1, 0] ++ expandSign [0, 0, 1]).map toVec).map (rmono a))
      (List.replicate 6 w) = w * famA a := by
    intro a w
    rw [rsum_replicate _ _ 6 (by simp [l1, l2, l3])]
    simp only [List.map_append, List.sum_append, sum_expand, famA]
  have hB : ∀ a w, rsum (((expandSign [1 / Real.sqrt 2, 1 / Real.sqrt 2, 0] ++ expandSign [1 / Real.sqrt 2, 0, 1 / Real.sqrt 2] ++
      expandSign [0, 1 / Real.sqrt 2, 1 / Real.sqrt 2]).map toVec).map (rmono a))
      (List.replicate 12 w) = w * famB a := by
    intro a w
    rw [rsum_replicate _ _ 12 (by simp only [List.length_map, List.length_append, l4, l5, l6])]
    simp only [List.map_append, List.sum_append, sum_expand, famB]
  have hC : ∀ a w, rsum (((expandSign [1 / Real.sqrt 3, 1 / Real.sqrt 3, 1 / Real.sqrt 3]).map toVec).map (rmono a))
      (List.replicate 8 w) = w * famC a := by
    intro a w
    rw [rsum_replicate _ _ 8 (by simp only [List.length_map, l7])]
    simp only [sum_expand, famC]
  have hD : ∀ a w, rsum (((expandSign [1 / Real.sqrt 11, 1 / Real.sqrt 11, 3 / Real.sqrt 11] ++
      expandSign [1 / Real.sqrt 11, 3 / Real.sqrt 11, 1 / Real.sqrt 11] ++
      expandSign [3 / Real.sqrt 11, 1 / Real.sqrt 11, 1 / Real.sqrt 11]).map toVec).map (rmono a))
      (List.replicate 24 w) = w * famD a := by
    intro a w
    rw [rsum_replicate _ _ 24 (by simp only [List.length_map, List.length_append, l8, l9, l10])]
    simp only [List.map_append, List.sum_append, sum_expand, famD]
  have hpts : octPoints = (expandSign [1, 0, 0] ++ expandSign [0, 1, 0] ++ expandSign [0, 0, 1]) ++
      ((expandSign [1 / Real.sqrt 2, 1 / Real.sqrt 2, 0] ++ expandSign [1 / Real.sqrt 2, 0, 1 / Real.sqrt 2] ++
      expandSign [0, 1 / Real.sqrt 2, 1 / Real.sqrt 2]) ++
      ((expandSign [1 / Real.sqrt 3, 1 / Real.sqrt 3, 1 / Real.sqrt 3]) ++
      ((expandSign [1 / Real.sqrt 11, 1 / Real.sqrt 11, 3 / Real.sqrt 11] ++
      expandSign [1 / Real.sqrt 11, 3 / Real.sqrt 11, 1 / Real.sqrt 11] ++
      expandSign [3 / Real.sqrt 11, 1 / Real.sqrt 11, 1 / Real.sqrt 11])))) := by
    simp only [octPoints, List.append_assoc]
  rw [hpts]
  generalize hgA : expandSign [1, 0, 0] ++ expandSign [0, 1, 0] ++ expandSign [0, 0, 1] = A at *
  generalize hgB : expandSign [1 / Real.sqrt 2, 1 / Real.sqrt 2, 0] ++ expandSign [1 / Real.sqrt 2, 0, 1 / Real.sqrt 2] ++
      expandSign [0, 1 / Real.sqrt 2, 1 / Real.sqrt 2] = B at *
  generalize hgC : expandSign [1 / Real.sqrt 3, 1 / Real.sqrt 3, 1 / Real.sqrt 3] = C at *
  generalize hgD : expandSign [1 / Real.sqrt 11, 1 / Real.sqrt 11, 3 / Real.sqrt 11] ++
      expandSign [1 / Real.sqrt 11, 3 / Real.sqrt 11, 1 / Real.sqrt 11] ++
      expandSign [3 / Real.sqrt 11, 1 / Real.sqrt 11, 1 / Real.sqrt 11] = D at *
  have lA : A.length = 6 := by rw [← hgA]; simp [l1, l2, l3]
  have lB : B.length = 12 := by rw [← hgB]; simp only [List.length_append, l4, l5, l6]
  have lD : D.length = 24 := by rw [← hgD]; simp only [List.length_append, l8, l9, l10]
  split at hc <;> simp only [Option.some.injEq, reduceCtorEq] at hc
  · subst hc
    refine ⟨fun a => ?_, by simp⟩
    have e : List.take 6 (A ++ (B ++ (C ++ D))) = A := by
      rw [List.take_append, lA]; simp [← lA]
    simp only [e, hA, octSum]
  · subst hc
    refine ⟨fun a => ?_, by simp⟩
    have e : List.take 18 (A ++ (B ++ (C ++ D))) = A ++ B := by
      rw [← List.append_assoc, List.take_append, List.length_append, lA, lB, List.take_of_length_le (by simp [lA, lB])]; simp
    simp only [e, List.map_append]
    rw [rsum_append _ _ _ _ (by simp [lA]), hA, hB]
    rfl
  · subst hc
    refine ⟨fun a => ?_, by simp⟩
    have e : List.take 26 (A ++ (B ++ (C ++ D))) = A ++ (B ++ C) := by
      rw [← List.append_assoc B, ← List.append_assoc, List.take_append, List.length_append, List.length_append, lA, lB, l7, List.take_of_length_le (by simp [lA, lB, l7])]; simp
    simp only [e, List.map_append, List.append_assoc]
    rw [rsum_append _ _ _ _ (by simp [lA]), rsum_append _ _ _ _ (by simp [lB]), hA, hB, hC]
    simp only [octSum]
    ring
  · subst hc
    refine ⟨fun a => ?_, by simp⟩
    have e : List.take 50 (A ++ (B ++ (C ++ D))) = A ++ (B ++ (C ++ D)) := by
      rw [List.take_of_length_le (by simp [lA, lB, l7, lD])]
    simp only [e, List.map_append, List.append_assoc]
    rw [rsum_append _ _ _ _ (by simp [lA]), rsum_append _ _ _ _ (by simp [lB]), rsum_append _ _ _ _ (by simp [l7]), hA, hB, hC, hD]
    simp only [octSum]
    ring


theorem fam_odd (a : Fin 3 → ℕ) (h : ∃ j, Odd (a j)) : famA a = 0 ∧ famB a = 0 ∧ famC a = 0 ∧ famD a = 0 := by
  obtain ⟨j, hj⟩ := h
  have e : ∀ x, sg x (a j) = 0 := fun x => sg_odd x _ hj
  fin_cases j <;> simp at e <;> simp [famA, famB, famC, famD, e]

theorem octSum_odd (n : ℕ) (a : Fin 3 → ℕ) (h : ∃ j, Odd (a j)) : octSum n a = 0 := by
  obtain ⟨h1, h2, h3, h4⟩ := fam_odd a h
  unfold octSum
  split <;> simp [h1, h2, h3, h4]

theorem sg_p (i : ℕ) : sg (1 / Real.sqrt 2) (2 * i) = 2 * (1 / 2) ^ i := by
  rw [sg_even _ sqrt_facts.1]; simp
theorem sg_q (i : ℕ) : sg (1 / Real.sqrt 3) (2 * i) = 2 * (1 / 3) ^ i := by
  rw [sg_even _ sqrt_facts.2.1]; simp
theorem sg_r (i : ℕ) : sg (1 / Real.sqrt 11) (2 * i) = 2 * (1 / 11) ^ i := by
  rw [sg_even _ sqrt_facts.2.2.1]; simp
theorem sg_s (i : ℕ) : sg (3 / Real.sqrt 11) (2 * i) = 2 * (9 / 11) ^ i := by
  rw [sg_even _ sqrt_facts.2.2.2]
  rw [div_pow, Real.sq_sqrt (by norm_num)]; norm_num
theorem sg_1 (i : ℕ) : sg 1 (2 * i) = 2 := by
  rw [sg_even _ one_ne_zero]; simp
theorem sg_0 (i : ℕ) : sg 0 (2 * i) = if i = 0 then 1 else 0 := by
  rw [sg_zero]; simp

theorem octSum_even (n d : ℕ) (hn : (n, d) = (6, 3) ∨ (n, d) = (18, 5) ∨ (n, d) = (26, 7) ∨ (n, d) = (50, 11))
    (i j k : ℕ) (h : 2 * (i + j + k) ≤ d) : octSum n ![2 * i, 2 * j, 2 * k] = moment i j k := by
  have e0 : (![2 * i, 2 * j, 2 * k] : Fin 3 → ℕ) 0 = 2 * i := rfl
  have e1 : (![2 * i, 2 * j, 2 * k] : Fin 3 → ℕ) 1 = 2 * j := rfl
  have e2 : (![2 * i, 2 * j, 2 * k] : Fin 3 → ℕ) 2 = 2 * k := rfl
  rcases hn with hn | hn | hn | hn <;> obtain ⟨rfl, rfl⟩ := Prod.mk.injEq .. ▸ hn <;>
  · simp only [octSum, famA, famB, famC, famD, e0, e1, e2, sg_p, sg_q, sg_r, sg_s, sg_1, sg_0]
    have hi : i ≤ 5 := by omega
    have hj : j ≤ 5 := by omega
    have hk : k ≤ 5 := by omega
    interval_cases i <;> interval_cases j <;> (try omega) <;> interval_cases k <;> (try omega) <;>
      norm_num [moment, Nat.doubleFactorial]

theorem oct_unit (n : ℕ) (q : Rule) (h : octahedron n = some q) : ∀ u ∈ q.pts, ∑ k, u k ^ 2 = 1 := by
  unfold octahedron at h
  rw [Option.map_eq_some_iff] at h
  obtain ⟨c, hc, rfl⟩ := h
  have hall : ∀ l ∈ octPoints, ∑ k, toVec l k ^ 2 = 1 := by
    have h2 : (Real.sqrt 2) ^ 2 = 2 := Real.sq_sqrt (by norm_num)
    have h3 : (Real.sqrt 3) ^ 2 = 3 := Real.sq_sqrt (by norm_num)
    have h11 : (Real.sqrt 11) ^ 2 = 11 := Real.sq_sqrt (by norm_num)
    have hex : ∀ x y z : ℝ, x ^ 2 + y ^ 2 + z ^ 2 = 1 → ∀ l ∈ expandSign [x, y, z], ∑ k, toVec l k ^ 2 = 1 := by
      intro x y z h l hl
      by_cases hx : x = 0 <;> by_cases hy : y = 0 <;> by_cases hz : z = 0 <;>
        simp [expandSign, hx, hy, hz] at hl h <;> 
        (try rcases hl with rfl | rfl | rfl | rfl | rfl | rfl | rfl | rfl) <;>
        simp_all [toVec, Fin.sum_univ_three]
    intro l hl
    simp only [octPoints, List.mem_append] at hl
    rcases hl with ((((((((hl | hl) | hl) | hl) | hl) | hl) | hl) | hl) | hl) | hl <;>
      refine hex _ _ _ ?_ l hl <;> (try simp only [div_pow, h2, h3, h11]) <;> norm_num
  intro u hu
  obtain ⟨l, hl, rfl⟩ := List.mem_map.mp hu
  exact hall l (List.mem_of_mem_take hl)

theorem oct_exact (n d : ℕ) (q : Rule) (h : octahedron n = some q)
    (hn : (n, d) = (6, 3) ∨ (n, d) = (18, 5) ∨ (n, d) = (26, 7) ∨ (n, d) = (50, 11)) (f : Vec 3 → ℂ)
    (hf : PolynomialOnSphere d f) : q.integrate (q.pts.map f) = sphereIntegral f := by
  refine exact_of_mono q d (oct_unit n q h) ?_ f hf
  apply exact_even
  · intro a _ ho
    rw [(oct_cases n q h).1, octSum_odd n a ho]
  · intro i j k hd
    rw [(oct_cases n q h).1, octSum_even n d hn i j k hd]

end Jaqmc.Ecp
