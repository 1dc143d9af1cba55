import Verif.Spec.LossGrad
import Verif.Props.Stats
import Mathlib.Data.List.Forall2
namespace Jaqmc.LossGrad
open Jaqmc.Stats Jaqmc.LossGrad.Spec

/-! ### Quantiles -/

noncomputable def interp (s : List ℝ) (pos : ℝ) : ℝ :=
  s.getD ⌊pos⌋₊ 0 * (1 - (pos - ⌊pos⌋₊)) + s.getD ⌈pos⌉₊ 0 * (pos - ⌊pos⌋₊)

theorem pos_bounds {n : Nat} (hn : 0 < n) {q : ℝ} (h0 : 0 ≤ q) (h1 : q ≤ 1) :
    0 ≤ q * ((n : ℝ) - 1) ∧ q * ((n : ℝ) - 1) ≤ ((n - 1 : Nat) : ℝ) := by
  have hn' : (1 : ℝ) ≤ n := by exact_mod_cast hn
  have e : ((n - 1 : Nat) : ℝ) = (n : ℝ) - 1 := by
    rw [Nat.cast_sub hn]; simp
  rw [e]
  constructor
  · apply mul_nonneg h0; linarith
  · nlinarith

theorem ceil_lt {n : Nat} (hn : 0 < n) {p : ℝ} (h : p ≤ ((n - 1 : Nat) : ℝ)) : ⌈p⌉₊ < n := by
  have : ⌈p⌉₊ ≤ n - 1 := Nat.ceil_le.2 h
  omega

theorem nanquantile_eq (q : ℝ) (h0 : 0 ≤ q) (h1 : q ≤ 1) (xs : List (Option ℝ)) (hne : xs.filterMap id ≠ []) :
    nanquantile q xs = some (interp ((xs.filterMap id).insertionSort (· ≤ ·))
      (q * ((((xs.filterMap id).insertionSort (· ≤ ·)).length : ℝ) - 1))) := by
  unfold nanquantile
  dsimp only
  have hs : (xs.filterMap id).insertionSort (· ≤ ·) ≠ [] := by
    intro h
    have := congrArg List.length h
    rw [List.length_insertionSort] at this
    exact hne (List.length_eq_zero_iff.1 this)
  rw [if_neg hs]
  generalize (xs.filterMap id).insertionSort (· ≤ ·) = s at hs
  have hn : 0 < s.length := List.length_pos_iff.2 hs
  obtain ⟨hp0, hp1⟩ := pos_bounds hn h0 h1
  have hc := ceil_lt hn hp1
  have hf : ⌊q * ((s.length : ℝ) - 1)⌋₊ < s.length := lt_of_le_of_lt (Nat.floor_le_ceil _) hc
  rw [List.getElem?_eq_getElem hf, List.getElem?_eq_getElem hc]
  dsimp only
  unfold interp
  rw [List.getD_eq_getElem?_getD, List.getD_eq_getElem?_getD, List.getElem?_eq_getElem hf,
    List.getElem?_eq_getElem hc]
  rfl

theorem sorted_getD {s : List ℝ} (hs : s.Pairwise (· ≤ ·)) {i j : Nat} (hij : i ≤ j) (hj : j < s.length) :
    s.getD i 0 ≤ s.getD j 0 := by
  rw [List.getD_eq_getElem?_getD, List.getD_eq_getElem?_getD, List.getElem?_eq_getElem hj,
    List.getElem?_eq_getElem (by omega)]
  simp only [Option.getD_some]
  rcases Nat.lt_or_ge i j with h | h
  · exact List.pairwise_iff_getElem.1 hs i j (by omega) hj h
  · have : i = j := by omega
    subst this; exact le_refl _

theorem weight_bounds {p : ℝ} (h : 0 ≤ p) : 0 ≤ p - ⌊p⌋₊ ∧ p - ⌊p⌋₊ ≤ 1 := by
  have h1 := Nat.floor_le h
  have h2 := Nat.lt_floor_add_one p
  constructor <;> linarith

theorem interp_bounds {s : List ℝ} (hs : s.Pairwise (· ≤ ·)) {p : ℝ} (h0 : 0 ≤ p) (hc : ⌈p⌉₊ < s.length) :
    s.getD ⌊p⌋₊ 0 ≤ interp s p ∧ interp s p ≤ s.getD ⌈p⌉₊ 0 := by
  have hle := sorted_getD hs (Nat.floor_le_ceil p) hc
  obtain ⟨w0, w1⟩ := weight_bounds h0
  unfold interp
  constructor <;> nlinarith

theorem interp_mono {s : List ℝ} (hs : s.Pairwise (· ≤ ·)) {p1 p2 : ℝ} (h0 : 0 ≤ p1) (h12 : p1 ≤ p2)
    (hc : ⌈p2⌉₊ < s.length) : interp s p1 ≤ interp s p2 := by
  have hc1 : ⌈p1⌉₊ < s.length := lt_of_le_of_lt (Nat.ceil_mono h12) hc
  have b1 := interp_bounds hs h0 hc1
  have b2 := interp_bounds hs (h0.trans h12) hc
  have hfm : ⌊p1⌋₊ ≤ ⌊p2⌋₊ := Nat.floor_mono h12
  rcases Nat.lt_or_ge ⌊p1⌋₊ ⌊p2⌋₊ with h | h
  · have hle : ⌈p1⌉₊ ≤ ⌊p2⌋₊ := (Nat.ceil_le_floor_add_one p1).trans h
    exact b1.2.trans ((sorted_getD hs hle (lt_of_le_of_lt (Nat.floor_le_ceil _) hc)).trans b2.1)
  · have he : ⌊p1⌋₊ = ⌊p2⌋₊ := by omega
    by_cases hi : p1 = ⌊p1⌋₊
    · have : interp s p1 = s.getD ⌊p1⌋₊ 0 := by
        unfold interp; rw [← hi]; simp
      rw [this, he]; exact b2.1
    · have hlt1 : (⌊p1⌋₊ : ℝ) < p1 := lt_of_le_of_ne (Nat.floor_le h0) (Ne.symm hi)
      have hcc : ⌈p1⌉₊ = ⌈p2⌉₊ := by
        have u1 : ⌈p1⌉₊ = ⌊p1⌋₊ + 1 := by
          apply le_antisymm (Nat.ceil_le_floor_add_one p1)
          exact Nat.succ_le_of_lt (Nat.lt_ceil.2 hlt1)
        have u2 : ⌈p2⌉₊ = ⌊p2⌋₊ + 1 := by
          apply le_antisymm (Nat.ceil_le_floor_add_one p2)
          exact Nat.succ_le_of_lt (Nat.lt_ceil.2 (by rw [← he]; linarith))
        rw [u1, u2, he]
      unfold interp
      rw [he, hcc]
      have hle := sorted_getD hs (Nat.floor_le_ceil p2) hc
      nlinarith

theorem sorted_sort (xs : List ℝ) : (xs.insertionSort (· ≤ ·)).Pairwise (· ≤ ·) :=
  List.pairwise_insertionSort (· ≤ ·) xs

theorem isQuantile_of {q : ℝ} {xs : List (Option ℝ)} {m : ℝ} (h : nanquantile q xs = some m) (h0 : 0 ≤ q)
    (h1 : q ≤ 1) : IsQuantile q (xs.filterMap id) m := by
  have hne : xs.filterMap id ≠ [] := by
    intro hn
    unfold nanquantile at h
    rw [hn] at h
    simp at h
  rw [nanquantile_eq q h0 h1 xs hne] at h
  refine ⟨(xs.filterMap id).insertionSort (· ≤ ·), List.perm_insertionSort _ _, sorted_sort _, ?_⟩
  rw [List.length_insertionSort] at h
  have hn : 0 < (xs.filterMap id).length := List.length_pos_iff.2 hne
  have hl : ((xs.filterMap id).insertionSort (· ≤ ·)).length = (xs.filterMap id).length :=
    List.length_insertionSort ..
  obtain ⟨hp0, hp1⟩ := pos_bounds hn h0 h1
  have hc := ceil_lt hn hp1
  replace hc := lt_of_lt_of_eq hc hl.symm
  generalize q * (((xs.filterMap id).length : ℝ) - 1) = p at *
  generalize (xs.filterMap id).insertionSort (· ≤ ·) = s at *
  have hf : ⌊p⌋₊ < s.length := lt_of_le_of_lt (Nat.floor_le_ceil _) hc
  have w0 := Nat.floor_le hp0
  have w1 := Nat.lt_floor_add_one p
  refine ⟨⌊p⌋₊, p - ⌊p⌋₊, s.getD ⌊p⌋₊ 0, s.getD ⌈p⌉₊ 0, by linarith, by linarith, by ring, ?_, ?_, ?_⟩
  · rw [List.getD_eq_getElem?_getD, List.getElem?_eq_getElem hf]; rfl
  · intro ht
    have hlt : (⌊p⌋₊ : ℝ) < p := lt_of_le_of_ne w0 (fun he => ht (by linarith))
    have : ⌈p⌉₊ = ⌊p⌋₊ + 1 :=
      le_antisymm (Nat.ceil_le_floor_add_one p) (Nat.succ_le_of_lt (Nat.lt_ceil.2 hlt))
    rw [this] at hc ⊢
    rw [List.getD_eq_getElem?_getD, List.getElem?_eq_getElem hc]; rfl
  · rw [Option.some.injEq] at h
    rw [← h]; unfold interp; ring

theorem quantile_mono {q1 q2 : ℝ} (h0 : 0 ≤ q1) (h12 : q1 ≤ q2) (h1 : q2 ≤ 1) (xs : List (Option ℝ))
    (hne : xs.filterMap id ≠ []) :
    ∃ a b, nanquantile q1 xs = some a ∧ nanquantile q2 xs = some b ∧ a ≤ b := by
  refine ⟨_, _, nanquantile_eq q1 h0 (h12.trans h1) xs hne, nanquantile_eq q2 (h0.trans h12) h1 xs hne, ?_⟩
  have hn : 0 < ((xs.filterMap id).insertionSort (· ≤ ·)).length := by
    rw [List.length_insertionSort]; exact List.length_pos_iff.2 hne
  have hn' : (1 : ℝ) ≤ (((xs.filterMap id).insertionSort (· ≤ ·)).length : ℝ) := by exact_mod_cast hn
  apply interp_mono (sorted_sort _) (pos_bounds hn h0 (h12.trans h1)).1
  · exact mul_le_mul_of_nonneg_right h12 (by linarith)
  · exact ceil_lt hn (pos_bounds hn (h0.trans h12) h1).2

theorem quantile_nonneg {q : ℝ} (h0 : 0 ≤ q) (h1 : q ≤ 1) (xs : List (Option ℝ))
    (hne : xs.filterMap id ≠ []) (hnn : ∀ x ∈ xs.filterMap id, 0 ≤ x) :
    ∃ a, nanquantile q xs = some a ∧ 0 ≤ a := by
  refine ⟨_, nanquantile_eq q h0 h1 xs hne, ?_⟩
  have hn : 0 < ((xs.filterMap id).insertionSort (· ≤ ·)).length := by
    rw [List.length_insertionSort]; exact List.length_pos_iff.2 hne
  obtain ⟨hp0, hp1⟩ := pos_bounds hn h0 h1
  have hc := ceil_lt hn hp1
  refine le_trans ?_ (interp_bounds (sorted_sort _) hp0 hc).1
  have hf := lt_of_le_of_lt (Nat.floor_le_ceil _) hc
  rw [List.getD_eq_getElem?_getD, List.getElem?_eq_getElem hf]
  exact hnn _ ((List.mem_insertionSort _).1 (List.getElem_mem hf))

theorem interp_shift (s : List ℝ) (c : ℝ) {p : ℝ} (hc : ⌈p⌉₊ < s.length) :
    interp (s.map (· + c)) p = interp s p + c := by
  have hf := lt_of_le_of_lt (Nat.floor_le_ceil p) hc
  unfold interp
  simp only [List.getD_eq_getElem?_getD, List.getElem?_map, List.getElem?_eq_getElem hf,
    List.getElem?_eq_getElem hc, Option.map_some, Option.getD_some]
  ring

theorem quantile_shift {q : ℝ} (h0 : 0 ≤ q) (h1 : q ≤ 1) (xs : List ℝ) (hne : xs ≠ []) (c : ℝ) :
    ∃ a, nanquantile q (xs.map some) = some a ∧ nanquantile q ((xs.map (· + c)).map some) = some (a + c) := by
  have e1 : (xs.map some).filterMap id = xs := Jaqmc.Stats.Props.filterMap_id_map_some xs
  have e2 : ((xs.map (· + c)).map some).filterMap id = xs.map (· + c) :=
    Jaqmc.Stats.Props.filterMap_id_map_some _
  refine ⟨_, nanquantile_eq q h0 h1 _ (by rw [e1]; exact hne), ?_⟩
  rw [nanquantile_eq q h0 h1 _ (by rw [e2]; simpa using hne), e1, e2]
  congr 1
  have hs : (xs.map (· + c)).insertionSort (· ≤ ·) = (xs.insertionSort (· ≤ ·)).map (· + c) := by
    symm
    apply List.map_insertionSort
    intro a _ b _
    simp
  rw [hs, List.length_map]
  have hn : 0 < (xs.insertionSort (· ≤ ·)).length := by
    rw [List.length_insertionSort]; exact List.length_pos_iff.2 hne
  exact interp_shift _ c (ceil_lt hn (pos_bounds hn h0 h1).2)

/-! ### Clipping -/

theorem limited_clip {lo hi : ℝ} (h : lo ≤ hi) (x : Option ℝ) : Limited lo hi x (clip x (some lo) (some hi)) := by
  cases x with
  | none => rfl
  | some x =>
    refine ⟨_, rfl, ?_, min_le_right _ _, ?_, ?_, ?_⟩
    · exact le_min (le_max_right _ _) h
    · intro h1 h2; rw [max_eq_left h1, min_eq_left h2]
    · intro h1; rw [max_eq_right h1.le, min_eq_left h]
    · intro h1; rw [max_eq_left (h.trans h1.le), min_eq_right h1.le]

theorem forall2_map {A B : Type} {R : A → B → Prop} {f : A → B} (l : List A) (h : ∀ a, R a (f a)) :
    List.Forall₂ R l (l.map f) := by
  induction l with
  | nil => exact .nil
  | cons a l ih => exact .cons (h a) ih

theorem allLimited_map {lo hi : ℝ} (h : lo ≤ hi) (shards : List (List (Option ℝ))) :
    AllLimited lo hi shards (shards.map (List.map (fun x => clip x (some lo) (some hi)))) :=
  forall2_map _ (fun _ => forall2_map _ (limited_clip h))

theorem flatten_map_map {A B : Type} (l : List (List A)) (f : A → B) :
    (l.map (List.map f)).flatten = l.flatten.map f := by
  rw [List.map_flatten]

/-- On data without NaN, clipping applies one function to every value, and shifting the data shifts the
result. -/
theorem clipReal_shift (method : String) (hm : method = "iqr" ∨ method = "mad" ∨ method = "none") (scale : ℝ)
    (xs : List (List ℝ)) (hne : xs.flatten ≠ []) (c : ℝ) :
    ∃ f : ℝ → ℝ, clipReal method scale (xs.map (List.map some)) = .ok (xs.map (List.map (fun x => some (f x)))) ∧
      clipReal method scale (xs.map (List.map (fun x => some (x + c))))
        = .ok (xs.map (List.map (fun x => some (f x + c)))) := by
  have eflat : (xs.map (List.map some)).flatten = xs.flatten.map some := flatten_map_map xs some
  have eflatc : (xs.map (List.map (fun x => some (x + c)))).flatten = (xs.flatten.map (· + c)).map some := by
    rw [flatten_map_map, List.map_map]; rfl
  have emap : ∀ (g : Option ℝ → Option ℝ), (xs.map (List.map some)).map (List.map g)
      = xs.map (List.map (fun x => g (some x))) := by
    intro g; rw [List.map_map]; apply List.map_congr_left; intro l _; simp [List.map_map]
  have emapc : ∀ (g : Option ℝ → Option ℝ), (xs.map (List.map (fun x => some (x + c)))).map (List.map g)
      = xs.map (List.map (fun x => g (some (x + c)))) := by
    intro g; rw [List.map_map]; apply List.map_congr_left; intro l _; simp [List.map_map]
  have clipc : ∀ x lo hi : ℝ, min (max (x + c) (lo + c)) (hi + c) = min (max x lo) hi + c := by
    intro x lo hi
    rw [max_add_add_right, min_add_add_right]
  unfold clipReal
  rcases hm with rfl | rfl | rfl
  · simp only [if_true]
    obtain ⟨q1, h1, h1'⟩ := quantile_shift (q := 1 / 4) (by norm_num) (by norm_num) xs.flatten hne c
    obtain ⟨q3, h3, h3'⟩ := quantile_shift (q := 3 / 4) (by norm_num) (by norm_num) xs.flatten hne c
    refine ⟨fun x => min (max x (q1 - scale * (q3 - q1))) (q3 + scale * (q3 - q1)), ?_, ?_⟩
    · unfold iqrClip
      rw [eflat, h1, h3, emap]
      rfl
    · unfold iqrClip
      rw [eflatc, h1', h3', emapc]
      congr 1
      apply List.map_congr_left; intro l _
      apply List.map_congr_left; intro x _
      simp only [nminus, nscale, nadd, clip, Option.bind_some, Option.map_some, Option.some.injEq]
      have e1 : q1 + c - scale * (q3 + c - (q1 + c)) = q1 - scale * (q3 - q1) + c := by ring
      have e2 : q3 + c + scale * (q3 + c - (q1 + c)) = q3 + scale * (q3 - q1) + c := by ring
      rw [e1, e2, clipc]
  · simp only [if_true]
    obtain ⟨md, h1, h1'⟩ := quantile_shift (q := 1 / 2) (by norm_num) (by norm_num) xs.flatten hne c
    obtain ⟨ad, h2, _⟩ := quantile_shift (q := 1 / 2) (by norm_num) (by norm_num)
      (xs.flatten.map (fun x => |x - md|)) (by simpa using hne) 0
    refine ⟨fun x => min (max x (md - scale * ad)) (md + scale * ad), ?_, ?_⟩
    · simp only [show ("mad" = "iqr") = False by simp, if_false]
      unfold madClip
      rw [eflat, h1, emap]
      have : (xs.flatten.map some).map (fun x => nabs (nminus x (some md)))
          = (xs.flatten.map (fun x => |x - md|)).map some := by
        rw [List.map_map, List.map_map]; rfl
      rw [this, h2]
      rfl
    · simp only [show ("mad" = "iqr") = False by simp, if_false]
      unfold madClip
      rw [eflatc, h1', emapc]
      have : ((xs.flatten.map (· + c)).map some).map (fun x => nabs (nminus x (some (md + c))))
          = (xs.flatten.map (fun x => |x - md|)).map some := by
        rw [List.map_map, List.map_map, List.map_map]
        apply List.map_congr_left; intro x _
        simp only [Function.comp_apply, nminus, nabs, Option.bind_some, Option.map_some]
        congr 2; ring
      rw [this, h2]
      congr 1
      apply List.map_congr_left; intro l _
      apply List.map_congr_left; intro x _
      simp only [nminus, nscale, nadd, clip, Option.bind_some, Option.map_some, Option.some.injEq]
      have e1 : md + c - scale * ad = md - scale * ad + c := by ring
      have e2 : md + c + scale * ad = md + scale * ad + c := by ring
      rw [e1, e2, clipc]
  · refine ⟨fun x => x, ?_, ?_⟩ <;> simp

theorem zipWith_map_self {A B C D : Type} (f : B → C → D) (a : A → B) (b : A → C) (l : List A) :
    List.zipWith f (l.map a) (l.map b) = l.map (fun x => f (a x) (b x)) := by
  induction l <;> simp_all

theorem clipComplex_shift (method : String) (hm : method = "iqr" ∨ method = "mad" ∨ method = "none") (scale : ℝ)
    (zs : List (List ℂ)) (hne : zs.flatten ≠ []) (c : ℝ) :
    ∃ f : ℂ → ℂ, clipComplex method scale (zs.map (List.map some)) = .ok (zs.map (List.map (fun z => some (f z)))) ∧
      clipComplex method scale (zs.map (List.map (fun z => some (z + (c : ℂ)))))
        = .ok (zs.map (List.map (fun z => some (f z + (c : ℂ))))) := by
  obtain ⟨f, hf, hf'⟩ := clipReal_shift method hm scale (zs.map (List.map Complex.re))
    (by rw [flatten_map_map]; simpa using hne) c
  obtain ⟨g, hg, _⟩ := clipReal_shift method hm scale (zs.map (List.map Complex.im))
    (by rw [flatten_map_map]; simpa using hne) c
  have mm : ∀ {A B C : Type} (a : A → B) (b : B → C) (l : List (List A)),
      (l.map (List.map a)).map (List.map b) = l.map (List.map (fun x => b (a x))) := by
    intro A B C a b l; rw [List.map_map]; apply List.map_congr_left; intro x _; simp [List.map_map]
  rw [mm, mm] at hf hf'
  rw [mm, mm] at hg
  refine ⟨fun z => ⟨f z.re, g z.im⟩, ?_, ?_⟩
  · unfold clipComplex
    dsimp only
    rw [mm, mm]
    simp only [Option.map_some]
    rw [hf, hg]
    dsimp only
    congr 1
    rw [zipWith_map_self]
    apply List.map_congr_left; intro l _
    rw [zipWith_map_self]
    rfl
  · unfold clipComplex
    dsimp only
    rw [mm, mm]
    simp only [Option.map_some, Complex.add_re, Complex.ofReal_re, Complex.add_im, Complex.ofReal_im, add_zero]
    rw [hf', hg]
    dsimp only
    congr 1
    rw [zipWith_map_self]
    apply List.map_congr_left; intro l _
    rw [zipWith_map_self]
    apply List.map_congr_left; intro z _
    simp only [ncomplex, Option.bind_some, Option.map_some, Option.some.injEq]
    apply Complex.ext <;> simp

/-! ### Means -/

section
variable {K : Type} [Field K]

theorem mean_add {A : Type} (l : List A) (f g : A → K) :
    mean (l.map (fun x => f x + g x)) = mean (l.map f) + mean (l.map g) := by
  unfold mean
  simp only [List.length_map]
  rw [← add_div]
  congr 1
  induction l with
  | nil => simp
  | cons a l ih => simp only [List.map_cons, List.sum_cons, ih]; ring

theorem mean_smul {A : Type} (l : List A) (c : K) (f : A → K) :
    mean (l.map (fun x => c * f x)) = c * mean (l.map f) := by
  unfold mean
  simp only [List.length_map]
  rw [← mul_div_assoc]
  congr 1
  induction l with
  | nil => simp
  | cons a l ih => simp only [List.map_cons, List.sum_cons, ih]; ring

theorem mean_const [CharZero K] {A : Type} (l : List A) (h : l ≠ []) (c : K) : mean (l.map (fun _ => c)) = c := by
  unfold mean
  have : (l.length : K) ≠ 0 := by
    exact_mod_cast (List.length_pos_iff.2 h).ne'
  simp only [List.length_map, List.map_const', List.length_replicate, List.sum_replicate, nsmul_eq_mul]
  field_simp

/-- Mean over shards of the mean in each shard. -/
def avg {A : Type} (shards : List (List A)) (f : A → K) : K := mean (shards.map (fun s => mean (s.map f)))

theorem meanOf_avg {A : Type} (shards : List (List A)) (h : shards ≠ []) (hs : ∀ s ∈ shards, s ≠ []) (f : A → K) :
    meanOf (shards.map (List.map (fun x => some (f x)))) = some (avg shards f) := by
  unfold meanOf
  have : (shards.map (List.map (fun x => some (f x)))).map nanmean
      = (shards.map (fun s => mean (s.map f))).map some := by
    rw [List.map_map, List.map_map]
    apply List.map_congr_left
    intro s hs'
    simp only [Function.comp_apply]
    have e : s.map (fun x => some (f x)) = (s.map f).map some := by rw [List.map_map]; rfl
    unfold nanmean
    rw [e, Jaqmc.Stats.Props.filterMap_id_map_some, if_neg (by simpa using hs s hs')]
  rw [this, Jaqmc.Stats.Props.pmean_some _ (by simpa using h)]
  rfl

theorem avg_add {A : Type} (shards : List (List A)) (f g : A → K) :
    avg shards (fun x => f x + g x) = avg shards f + avg shards g := by
  unfold avg
  rw [← mean_add]
  congr 1
  apply List.map_congr_left
  intro s _
  exact mean_add s f g

theorem avg_smul {A : Type} (shards : List (List A)) (c : K) (f : A → K) :
    avg shards (fun x => c * f x) = c * avg shards f := by
  unfold avg
  rw [← mean_smul]
  congr 1
  apply List.map_congr_left
  intro s _
  exact mean_smul s c f

theorem avg_const [CharZero K] {A : Type} (shards : List (List A)) (h : shards ≠ []) (hs : ∀ s ∈ shards, s ≠ [])
    (c : K) : avg shards (fun _ => c) = c := by
  unfold avg
  rw [show shards.map (fun s => mean (s.map (fun _ => c))) = shards.map (fun _ => c) from ?_]
  · exact mean_const _ h c
  · apply List.map_congr_left
    intro s hs'
    exact mean_const s (hs s hs') c

end

theorem mean_re {A : Type} (l : List A) (f : A → ℂ) : (mean (l.map f)).re = mean (l.map (fun x => (f x).re)) := by
  unfold mean
  simp only [List.length_map]
  have : ((l.length : ℂ)) = ((l.length : ℝ) : ℂ) := by simp
  rw [this, Complex.div_ofReal_re]
  congr 1
  induction l with
  | nil => simp
  | cons a l ih => simp [ih]

theorem avg_re {A : Type} (shards : List (List A)) (f : A → ℂ) :
    (avg shards f).re = avg shards (fun x => (f x).re) := by
  unfold avg
  rw [mean_re]
  congr 1
  apply List.map_congr_left
  intro s _
  exact mean_re s f

end Jaqmc.LossGrad
