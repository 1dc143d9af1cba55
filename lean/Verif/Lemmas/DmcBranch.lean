import Verif.Model.DmcBranch
import Mathlib.MeasureTheory.Integral.Pi
import Mathlib.MeasureTheory.Integral.IntervalIntegral.Basic
import Mathlib.MeasureTheory.Constructions.UnitInterval
import Mathlib.Algebra.BigOperators.Fin
import Mathlib.Tactic.FieldSimp
import Mathlib.Tactic.Ring
import Mathlib.Tactic.Linarith
/-! Lemmas for the branching steps of the legacy DMC. -/
namespace Jaqmc.DmcBranch
open MeasureTheory
open scoped Classical

section
variable {N : ℕ}

/-- The change of `∑ w g` made by one merge. -/
noncomputable def delta (k1 k2 ga gb u : ℝ) : ℝ :=
  if u < k1 / (k1 + k2) then k2 * (ga - gb) else k1 * (gb - ga)

theorem pair_inj {m : ℕ} (h : 2 * m ≤ N) (w : Fin N → ℝ) :
    Function.Injective fun p : Fin m × Fin 2 =>
      if p.2 = 0 then pairFst h w p.1 else pairSnd h w p.1 := by
  rintro ⟨i, a⟩ ⟨j, b⟩ e
  have key : ∀ (i : Fin m) (a : Fin 2), (if a = 0 then pairFst h w i else pairSnd h w i) =
      Tuple.sort w ⟨2 * i.1 + a.1, by omega⟩ := by
    intro i a
    fin_cases a <;> rfl
  simp only [key] at e
  have := (Tuple.sort w).injective e
  simp only [Fin.mk.injEq] at this
  refine Prod.ext (Fin.ext ?_) (Fin.ext ?_) <;> simp only <;> omega

theorem fst_ne_snd {m : ℕ} (h : 2 * m ≤ N) (w : Fin N → ℝ) (i j : Fin m) :
    pairFst h w i ≠ pairSnd h w j := by
  intro e
  have := @pair_inj N m h w (i, 0) (j, 1) (by simpa using e)
  simp at this

theorem fst_inj {m : ℕ} (h : 2 * m ≤ N) (w : Fin N → ℝ) : Function.Injective (pairFst h w) := by
  intro i j e
  have := @pair_inj N m h w (i, 0) (j, 0) (by simpa using e)
  simpa using this

theorem snd_inj {m : ℕ} (h : 2 * m ≤ N) (w : Fin N → ℝ) : Function.Injective (pairSnd h w) := by
  intro i j e
  have := @pair_inj N m h w (i, 1) (j, 1) (by simpa using e)
  simpa using this

theorem fst_le_snd {m : ℕ} (h : 2 * m ≤ N) (w : Fin N → ℝ) (i : Fin m) :
    w (pairFst h w i) ≤ w (pairSnd h w i) :=
  Tuple.monotone_sort w (by simp [Fin.le_def])

/-- Sum over a function changed at two points. -/
theorem sum_two {f f' : Fin N → ℝ} {i j : Fin N} (hij : i ≠ j)
    (h : ∀ k, k ≠ i → k ≠ j → f' k = f k) :
    ∑ k, f' k = ∑ k, f k + ((f' i - f i) + (f' j - f j)) := by
  have : ∑ k, (f' k - f k) = (f' i - f i) + (f' j - f j) := by
    rw [← Finset.sum_pair (f := fun k => f' k - f k) hij]
    symm
    apply Finset.sum_subset (Finset.subset_univ _)
    intro k _ hk
    simp only [Finset.mem_insert, Finset.mem_singleton, not_or] at hk
    rw [h k hk.1 hk.2, sub_self]
  rw [Finset.sum_sub_distrib] at this
  linarith

theorem helper_other {m : ℕ} (h : 2 * m ≤ N) (w : Fin N → ℝ) (minT : ℝ) (u : Fin m → ℝ)
    (s : (Fin N → ℝ) × (Fin N → ℕ)) (j : Fin m) (k : Fin N) (h1 : k ≠ pairFst h w j)
    (h2 : k ≠ pairSnd h w j) :
    (helper h w minT u s j).1 k = s.1 k ∧ (helper h w minT u s j).2 k = s.2 k := by
  unfold helper updateWeight
  split
  · by_cases c : u j < w (pairFst h w j) / (w (pairFst h w j) + w (pairSnd h w j)) <;>
      simp [c, h1, h2]
  · exact ⟨rfl, rfl⟩

theorem helper_sum {m : ℕ} (h : 2 * m ≤ N) (w : Fin N → ℝ) (minT : ℝ) (u : Fin m → ℝ)
    (s : (Fin N → ℝ) × (Fin N → ℕ)) (j : Fin m) (g : Fin N → ℝ)
    (a1 : s.1 (pairFst h w j) = w (pairFst h w j)) (a2 : s.1 (pairSnd h w j) = w (pairSnd h w j))
    (b1 : s.2 (pairFst h w j) = 1) (b2 : s.2 (pairSnd h w j) = 1) :
    ∑ i, ((helper h w minT u s j).2 i : ℝ) * (helper h w minT u s j).1 i * g i =
      ∑ i, (s.2 i : ℝ) * s.1 i * g i +
        if w (pairFst h w j) < minT then
          delta (w (pairFst h w j)) (w (pairSnd h w j)) (g (pairFst h w j)) (g (pairSnd h w j)) (u j)
        else 0 := by
  have ne := fst_ne_snd h w j j
  by_cases hm : w (pairFst h w j) < minT
  · rw [sum_two ne (f := fun i => (s.2 i : ℝ) * s.1 i * g i)]
    · congr 1
      rw [if_pos hm]
      unfold helper updateWeight delta
      rw [if_pos hm]
      by_cases c : u j < w (pairFst h w j) / (w (pairFst h w j) + w (pairSnd h w j))
      · simp [c, ne, ne.symm, a1, a2, b1, b2]; ring
      · simp [c, ne, ne.symm, a1, a2, b1, b2]; ring
    · intro k h1 h2
      rw [(helper_other h w minT u s j k h1 h2).1, (helper_other h w minT u s j k h1 h2).2]
  · rw [if_neg hm]
    unfold helper
    rw [if_neg hm, add_zero]

theorem loop_sum {m : ℕ} (h : 2 * m ≤ N) (w : Fin N → ℝ) (minT : ℝ) (u : Fin m → ℝ)
    (g : Fin N → ℝ) (l : List (Fin m)) (hl : l.Nodup) (s : (Fin N → ℝ) × (Fin N → ℕ))
    (hs : ∀ j ∈ l, s.1 (pairFst h w j) = w (pairFst h w j) ∧
      s.1 (pairSnd h w j) = w (pairSnd h w j) ∧ s.2 (pairFst h w j) = 1 ∧
      s.2 (pairSnd h w j) = 1) :
    ∑ i, ((l.foldl (helper h w minT u) s).2 i : ℝ) * (l.foldl (helper h w minT u) s).1 i * g i =
      ∑ i, (s.2 i : ℝ) * s.1 i * g i +
        (l.map fun j => if w (pairFst h w j) < minT then
          delta (w (pairFst h w j)) (w (pairSnd h w j)) (g (pairFst h w j)) (g (pairSnd h w j)) (u j)
        else 0).sum := by
  induction l generalizing s with
  | nil => simp
  | cons j l ih =>
    rw [List.nodup_cons] at hl
    rw [List.foldl_cons, ih hl.2]
    · obtain ⟨a1, a2, b1, b2⟩ := hs j (by simp)
      rw [helper_sum h w minT u s j g a1 a2 b1 b2, List.map_cons, List.sum_cons]
      ring
    · intro k hk
      have hkj : k ≠ j := fun e => hl.1 (e ▸ hk)
      have o1 := helper_other h w minT u s j (pairFst h w k)
        (fun e => hkj (fst_inj h w e)) (fst_ne_snd h w k j)
      have o2 := helper_other h w minT u s j (pairSnd h w k)
        (fst_ne_snd h w j k).symm (fun e => hkj (snd_inj h w e))
      rw [o1.1, o1.2, o2.1, o2.2]
      exact hs k (by simp [hk])

theorem rows_sum {α : Type*} (w : Fin N → ℝ) (rep : Fin N → ℕ) (x : Fin N → α) (f : α → ℝ) :
    ((repeatRows w rep x).map fun p => p.1 * f p.2).sum = ∑ i, (rep i : ℝ) * (w i * f (x i)) := by
  have : ∀ l : List (Fin N), ((l.flatMap fun i => List.replicate (rep i) (w i, x i)).map
      fun p => p.1 * f p.2).sum = (l.map fun i => (rep i : ℝ) * (w i * f (x i))).sum := by
    intro l
    induction l with
    | nil => simp
    | cons a l ih => simp [List.flatMap_cons, ih]
  unfold repeatRows
  rw [this, ← List.ofFn_eq_map, List.sum_ofFn]

theorem doBranch_sum {α : Type*} {m : ℕ} (h : 2 * m ≤ N) (w : Fin N → ℝ) (minT maxT : ℝ)
    (u : Fin m → ℝ) (x : Fin N → α) (f : α → ℝ) :
    ((repeatRows (doBranch h w minT maxT u).1 (doBranch h w minT maxT u).2 x).map
      fun p => p.1 * f p.2).sum = ∑ i, w i * f (x i) +
        ∑ j, if w (pairFst h w j) < minT then
          delta (w (pairFst h w j)) (w (pairSnd h w j)) (f (x (pairFst h w j)))
            (f (x (pairSnd h w j))) (u j) else 0 := by
  rw [rows_sum]
  have l := loop_sum h w minT u (fun i => f (x i)) (List.finRange m) (List.nodup_finRange m)
    (w, fun _ => 1) (fun j _ => ⟨rfl, rfl, rfl, rfl⟩)
  simp only [Nat.cast_one, one_mul] at l
  rw [← List.ofFn_eq_map, List.sum_ofFn] at l
  rw [← l]
  refine Finset.sum_congr rfl fun i _ => ?_
  simp only [doBranch]
  split
  · push_cast; ring
  · push_cast; ring

/-- The uniform distribution on the unit interval, as a measure on `ℝ`. -/
theorem integral_delta (k1 k2 ga gb : ℝ) (h1 : 0 ≤ k1) (h2 : 0 ≤ k2) :
    ∫ u in Set.Icc (0 : ℝ) 1, delta k1 k2 ga gb u = 0 := by
  rcases eq_or_lt_of_le (add_nonneg h1 h2) with e | e
  · have a : k1 = 0 := by linarith
    have b : k2 = 0 := by linarith
    subst a b
    simp [delta]
  · set p := k1 / (k1 + k2) with hp
    have p0 : 0 ≤ p := div_nonneg h1 e.le
    have p1 : p ≤ 1 := by rw [hp, div_le_one e]; linarith
    rw [integral_Icc_eq_integral_Ioc, ← intervalIntegral.integral_of_le zero_le_one]
    have A : IntervalIntegrable (delta k1 k2 ga gb) volume 0 p ∧
        ∫ u in (0 : ℝ)..p, delta k1 k2 ga gb u = p * (k2 * (ga - gb)) := by
      have ae : ∀ᵐ u ∂volume, u ∈ Set.uIoc (0 : ℝ) p → delta k1 k2 ga gb u = k2 * (ga - gb) := by
        have : ∀ᵐ u : ℝ ∂volume, u ≠ p := by simp [ae_iff]
        filter_upwards [this] with u hu hm
        rw [Set.uIoc_of_le p0] at hm
        unfold delta
        rw [if_pos (lt_of_le_of_ne hm.2 hu)]
      constructor
      · refine (intervalIntegrable_const (c := k2 * (ga - gb))).congr_ae ?_
        rw [Filter.EventuallyEq, ae_restrict_iff' measurableSet_uIoc]
        filter_upwards [ae] with u hu hm using (hu hm).symm
      · rw [intervalIntegral.integral_congr_ae ae]
        simp
        ring
    have B : IntervalIntegrable (delta k1 k2 ga gb) volume p 1 ∧
        ∫ u in p..1, delta k1 k2 ga gb u = (1 - p) * (k1 * (gb - ga)) := by
      have ae : ∀ u, u ∈ Set.uIoc p 1 → delta k1 k2 ga gb u = k1 * (gb - ga) := by
        intro u hm
        rw [Set.uIoc_of_le p1] at hm
        unfold delta
        rw [if_neg (not_lt.mpr hm.1.le)]
      constructor
      · refine (intervalIntegrable_const (c := k1 * (gb - ga))).congr_ae ?_
        rw [Filter.EventuallyEq, ae_restrict_iff' measurableSet_uIoc]
        exact Filter.Eventually.of_forall fun u hm => (ae u hm).symm
      · rw [intervalIntegral.integral_congr_ae (Filter.Eventually.of_forall ae)]
        simp
        ring
    rw [← intervalIntegral.integral_add_adjacent_intervals A.1 B.1, A.2, B.2, hp]
    field_simp
    ring

theorem measurable_delta (k1 k2 ga gb : ℝ) : Measurable (delta k1 k2 ga gb) :=
  Measurable.ite measurableSet_Iio measurable_const measurable_const

theorem abs_delta (k1 k2 ga gb u : ℝ) :
    |delta k1 k2 ga gb u| ≤ |k2 * (ga - gb)| + |k1 * (gb - ga)| := by
  unfold delta
  split
  · linarith [abs_nonneg (k1 * (gb - ga))]
  · linarith [abs_nonneg (k2 * (ga - gb))]

end
end Jaqmc.DmcBranch

namespace Jaqmc.DmcBranch
open MeasureTheory
open scoped Classical
section
variable {N n : ℕ}

theorem setAt_off {β : Type*} (idx : Fin n → Fin N) (v : Fin n → β) (a : Fin N → β) (i : Fin N)
    (h : ∀ j, idx j ≠ i) : setAt idx v a i = a i := by
  unfold setAt
  generalize List.finRange n = l
  induction l generalizing a with
  | nil => rfl
  | cons j l ih => rw [List.foldl_cons, ih, Function.update_of_ne (h j).symm]

theorem setAt_on {β : Type*} (idx : Fin n → Fin N) (hi : Function.Injective idx) (v : Fin n → β)
    (a : Fin N → β) (j : Fin n) : setAt idx v a (idx j) = v j := by
  have key : ∀ (l : List (Fin n)) (a : Fin N → β), j ∈ l ∨ a (idx j) = v j →
      l.foldl (fun a j => Function.update a (idx j) (v j)) a (idx j) = v j := by
    intro l
    induction l with
    | nil => intro a h; simpa using h
    | cons k l ih =>
      intro a h
      rw [List.foldl_cons]
      apply ih
      by_cases e : j = k
      · subst e; right; simp
      · rcases h with h | h
        · left; simpa [e] using h
        · right
          rw [Function.update_of_ne (fun c => e (hi c)), h]
  exact key _ _ (Or.inl (List.mem_finRange j))

theorem addAt_off (idx : Fin n → Fin N) (v : Fin n → ℝ) (a : Fin N → ℝ) (i : Fin N)
    (h : ∀ j, idx j ≠ i) : addAt idx v a i = a i := by
  unfold addAt
  generalize List.finRange n = l
  induction l generalizing a with
  | nil => rfl
  | cons j l ih => rw [List.foldl_cons, ih, Function.update_of_ne (h j).symm]

theorem addAt_on (idx : Fin n → Fin N) (hi : Function.Injective idx) (v : Fin n → ℝ)
    (a : Fin N → ℝ) (j : Fin n) : addAt idx v a (idx j) = a (idx j) + v j := by
  have key : ∀ (l : List (Fin n)) (a : Fin N → ℝ), l.Nodup →
      l.foldl (fun a j => Function.update a (idx j) (a (idx j) + v j)) a (idx j) =
        a (idx j) + if j ∈ l then v j else 0 := by
    intro l
    induction l with
    | nil => intro a _; simp
    | cons k l ih =>
      intro a h
      rw [List.nodup_cons] at h
      rw [List.foldl_cons, ih _ h.2]
      by_cases e : j = k
      · subst e; simp [h.1]
      · rw [Function.update_of_ne (fun c => e (hi c))]
        simp [e]
  have := key (List.finRange n) a (List.nodup_finRange n)
  rw [if_pos (List.mem_finRange j)] at this
  exact this

/-- Closed form of the fixed-size branching when the merged and the split walkers are different
and no draw hits its threshold. -/
theorem fix_sum {α : Type*} (w : Fin N → ℝ) (x : Fin N → α) (a b l : Fin n → Fin N)
    (u : Fin n → ℝ) (f : α → ℝ) (ha : Function.Injective a) (hb : Function.Injective b)
    (hl : Function.Injective l) (hab : ∀ i j, a i ≠ b j) (hal : ∀ i j, a i ≠ l j)
    (hbl : ∀ i j, b i ≠ l j) (hu : ∀ j, u j ≠ w (a j) / (w (a j) + w (b j))) :
    ∑ i, (doBranchFix w x a b l u).1 i * f ((doBranchFix w x a b l u).2 i) =
      ∑ i, w i * f (x i) +
        ∑ j, delta (w (a j)) (w (b j)) (f (x (a j))) (f (x (b j))) (u j) := by
  set kept := keptIdx w a b u with hk
  set rem := removedIdx w a b u with hr
  have dich : ∀ j, (kept j = a j ∧ rem j = b j ∧ u j < w (a j) / (w (a j) + w (b j))) ∨
      (kept j = b j ∧ rem j = a j ∧ ¬ u j < w (a j) / (w (a j) + w (b j))) := by
    intro j
    rcases lt_or_gt_of_ne (hu j) with c | c
    · left; simp [hk, hr, keptIdx, removedIdx, c, not_lt.mpr c.le]
    · right; simp [hk, hr, keptIdx, removedIdx, c, not_lt.mpr c.le]
  have ik : Function.Injective kept := by
    intro i j e
    rcases dich i with c | c <;> rcases dich j with d | d <;> rw [c.1, d.1] at e
    · exact ha e
    · exact absurd e (hab i j)
    · exact absurd e (hab j i).symm
    · exact hb e
  have ir : Function.Injective rem := by
    intro i j e
    rcases dich i with c | c <;> rcases dich j with d | d <;> rw [c.2.1, d.2.1] at e
    · exact hb e
    · exact absurd e (hab j i).symm
    · exact absurd e (hab i j)
    · exact ha e
  have kr : ∀ i j, kept i ≠ rem j := by
    intro i j e
    rcases dich i with c | c <;> rcases dich j with d | d <;> rw [c.1, d.2.1] at e
    · exact hab _ _ e
    · have := ha e; subst this; exact d.2.2 c.2.2
    · have := hb e; subst this; exact c.2.2 d.2.2
    · exact hab _ _ e.symm
  have kl : ∀ i j, kept i ≠ l j := by
    intro i j
    rcases dich i with c | c <;> rw [c.1]
    · exact hal i j
    · exact hbl i j
  have rl : ∀ i j, rem i ≠ l j := by
    intro i j
    rcases dich i with c | c <;> rw [c.2.1]
    · exact hbl i j
    · exact hal i j
  let w1 := addAt kept (fun j => w (rem j)) w
  let w2 := setAt l (fun j => w1 (l j) / 2) w1
  let w3 := setAt rem (fun j => w2 (l j)) w2
  let x' := setAt rem (fun j => x (l j)) x
  have hw3 : (doBranchFix w x a b l u).1 = w3 := rfl
  have hx' : (doBranchFix w x a b l u).2 = x' := rfl
  rw [hw3, hx']
  have w1l : ∀ j, w1 (l j) = w (l j) := fun j => addAt_off _ _ _ _ fun i => kl i j
  have w2l : ∀ j, w2 (l j) = w (l j) / 2 := fun j => by
    rw [show w2 (l j) = w1 (l j) / 2 from setAt_on l hl _ _ j, w1l]
  have w3r : ∀ j, w3 (rem j) = w (l j) / 2 := fun j => by
    rw [show w3 (rem j) = w2 (l j) from setAt_on rem ir _ _ j, w2l]
  have w3l : ∀ j, w3 (l j) = w (l j) / 2 := fun j => by
    rw [show w3 (l j) = w2 (l j) from setAt_off rem _ _ _ fun i => rl i j, w2l]
  have w3k : ∀ j, w3 (kept j) = w (kept j) + w (rem j) := fun j => by
    rw [show w3 (kept j) = w2 (kept j) from setAt_off rem _ _ _ fun i => (kr j i).symm,
      show w2 (kept j) = w1 (kept j) from setAt_off l _ _ _ fun i => (kl j i).symm,
      show w1 (kept j) = _ from addAt_on kept ik _ _ j]
  have xr : ∀ j, x' (rem j) = x (l j) := fun j => setAt_on rem ir _ _ j
  have xl : ∀ j, x' (l j) = x (l j) := fun j => setAt_off rem _ _ _ fun i => rl i j
  have xk : ∀ j, x' (kept j) = x (kept j) := fun j => setAt_off rem _ _ _ fun i => (kr j i).symm
  let e : Fin n × Fin 3 → Fin N := fun p => ![kept p.1, rem p.1, l p.1] p.2
  have ie : Function.Injective e := by
    rintro ⟨i, s⟩ ⟨j, t⟩ h
    have h' : (![kept i, rem i, l i] : Fin 3 → Fin N) s = ![kept j, rem j, l j] t := h
    fin_cases s <;> fin_cases t <;> simp at h' ⊢
    · exact ik h'
    · exact kr _ _ h'
    · exact kl _ _ h'
    · exact kr _ _ h'.symm
    · exact ir h'
    · exact rl _ _ h'
    · exact kl _ _ h'.symm
    · exact rl _ _ h'.symm
    · exact hl h'
  have off : ∀ i, i ∉ Set.range e → w3 i * f (x' i) - w i * f (x i) = 0 := by
    intro i hi
    have o1 : ∀ j, kept j ≠ i := fun j h => hi ⟨(j, 0), h⟩
    have o2 : ∀ j, rem j ≠ i := fun j h => hi ⟨(j, 1), h⟩
    have o3 : ∀ j, l j ≠ i := fun j h => hi ⟨(j, 2), h⟩
    rw [show w3 i = w2 i from setAt_off rem _ _ _ o2, show w2 i = w1 i from setAt_off l _ _ _ o3,
      show w1 i = w i from addAt_off kept _ _ _ o1, show x' i = x i from setAt_off rem _ _ _ o2,
      sub_self]
  have S := Fintype.sum_of_injective e ie
    (fun p => w3 (e p) * f (x' (e p)) - w (e p) * f (x (e p)))
    (fun i => w3 i * f (x' i) - w i * f (x i)) off (fun _ => rfl)
  rw [Fintype.sum_prod_type] at S
  rw [← sub_eq_iff_eq_add', ← Finset.sum_sub_distrib, ← S]
  refine Finset.sum_congr rfl fun j _ => ?_
  rw [Fin.sum_univ_three]
  change (w3 (kept j) * f (x' (kept j)) - w (kept j) * f (x (kept j))) +
    (w3 (rem j) * f (x' (rem j)) - w (rem j) * f (x (rem j))) +
    (w3 (l j) * f (x' (l j)) - w (l j) * f (x (l j))) = _
  rw [w3k, w3r, w3l, xk, xr, xl]
  unfold delta
  rcases dich j with c | c
  · rw [c.1, c.2.1, if_pos c.2.2]; ring
  · rw [c.1, c.2.1, if_neg c.2.2]; ring

/-- Distinct weights and room for all: no walker is both merged and split. -/
theorem distinct_disjoint (h : 2 * n ≤ N) (h3 : 3 * n ≤ N) (w : Fin N → ℝ)
    (hw : Function.Injective w) (p q : Fin N) (hp : p.1 < 2 * n) (hq : q.1 < n) :
    ascending w p ≠ descending w q := by
  intro e
  set i := ascending w p with hi
  have A : (Finset.univ.filter fun k => w k < w i).card ≤ p.1 := by
    have : (Finset.univ.filter fun k => w k < w i) ⊆
        (Finset.Iio p).image (Tuple.sort w) := by
      intro k hk
      simp only [Finset.mem_filter, Finset.mem_univ, true_and] at hk
      simp only [Finset.mem_image, Finset.mem_Iio]
      refine ⟨(Tuple.sort w).symm k, ?_, by simp⟩
      by_contra c
      have := Tuple.monotone_sort w (not_lt.mp c)
      simp only [Function.comp, Equiv.apply_symm_apply] at this
      exact absurd hk (not_lt.mpr this)
    refine (Finset.card_le_card this).trans (Finset.card_image_le.trans ?_)
    simp
  have B : (Finset.univ.filter fun k => w i < w k).card ≤ q.1 := by
    have : (Finset.univ.filter fun k => w i < w k) ⊆
        (Finset.Iio q).image (Tuple.sort fun i => -w i) := by
      intro k hk
      simp only [Finset.mem_filter, Finset.mem_univ, true_and] at hk
      simp only [Finset.mem_image, Finset.mem_Iio]
      refine ⟨(Tuple.sort fun i => -w i).symm k, ?_, by simp⟩
      by_contra c
      have := Tuple.monotone_sort (fun i => -w i) (not_lt.mp c)
      simp only [Function.comp, Equiv.apply_symm_apply] at this
      rw [e] at hk
      unfold descending at hk
      linarith
    refine (Finset.card_le_card this).trans (Finset.card_image_le.trans ?_)
    simp
  have C : (Finset.univ : Finset (Fin N)) = (Finset.univ.filter fun k => w k < w i) ∪
      (Finset.univ.filter fun k => w i < w k) ∪ {i} := by
    ext k
    simp only [Finset.mem_univ, Finset.mem_union, Finset.mem_filter, true_and,
      Finset.mem_singleton, true_iff]
    rcases lt_trichotomy (w k) (w i) with c | c | c
    · exact Or.inl (Or.inl c)
    · exact Or.inr (hw c)
    · exact Or.inl (Or.inr c)
  have D : N ≤ p.1 + q.1 + 1 := by
    have := congrArg Finset.card C
    rw [Finset.card_univ, Fintype.card_fin] at this
    have h1 := Finset.card_union_le ((Finset.univ.filter fun k => w k < w i) ∪
      (Finset.univ.filter fun k => w i < w k)) {i}
    have h2 := Finset.card_union_le (Finset.univ.filter fun k => w k < w i)
      (Finset.univ.filter fun k => w i < w k)
    rw [Finset.card_singleton] at h1
    omega
  omega

end
end Jaqmc.DmcBranch
