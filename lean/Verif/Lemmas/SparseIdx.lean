import Verif.Spec.Sparse
import Mathlib.Algebra.BigOperators.Ring.Finset
import Mathlib.Tactic.Ring
import Mathlib.Tactic.Linarith
/-! Index arithmetic for C45. -/
namespace Jaqmc.Sparse

theorem getD_map_range (n : ℕ) (g : ℕ → ℕ) (a d : ℕ) :
    ((List.range n).map g).getD a d = if a < n then g a else d := by
  by_cases h : a < n
  · simp [h, List.getD_eq_getElem?_getD, List.getElem?_map, List.getElem?_range h]
  · simp [h, List.getD_eq_getElem?_getD]

theorem list_ext_getD {l m : List ℕ} (hl : l.length = m.length) (h : ∀ a, a < l.length → l.getD a 0 = m.getD a 0) : l = m := by
  apply List.ext_getElem hl
  intro a h1 h2
  have := h a h1
  simpa [List.getD_eq_getElem?_getD, h1, h2] using this

theorem InB.length {sh i : List ℕ} (h : InB sh i) : i.length = sh.length := h.1

theorem inB_cons {n s : ℕ} {sh i : List ℕ} : InB (n :: sh) (s :: i) ↔ s < n ∧ InB sh i := by
  constructor
  · rintro ⟨h1, h2⟩
    refine ⟨by simpa using h2 0 (by simp), by simpa using h1, fun a ha => ?_⟩
    simpa using h2 (a + 1) (by simpa using ha)
  · rintro ⟨h1, h2, h3⟩
    refine ⟨by simpa using h2, fun a ha => ?_⟩
    cases a with
    | zero => simpa using h1
    | succ a => simpa using h3 a (by simpa using ha)

theorem inB_nil {i : List ℕ} : InB [] i ↔ i = [] := by
  constructor
  · rintro ⟨h, _⟩; simpa using h
  · rintro rfl; exact ⟨rfl, by simp⟩

theorem bsrc_length (sh i : List ℕ) : (bsrc sh i).length = sh.length := by simp [bsrc]

theorem bsrc_self {sh i : List ℕ} (h : InB sh i) : bsrc sh i = i := by
  apply list_ext_getD
  · simp [bsrc, h.length]
  · intro a ha
    have ha' : a < sh.length := by simpa [bsrc] using ha
    unfold bsrc
    rw [getD_map_range, if_pos ha']
    have := h.2 a ha'
    split
    · omega
    · simp [h.length]

theorem bshapeRev_self (s : List ℕ) : bshapeRev s s = s := by
  induction s with
  | nil => simp [bshapeRev]
  | cons a s ih => simp [bshapeRev, ih]

theorem bshape_self (s : List ℕ) : bshape s s = s := by simp [bshape, bshapeRev_self]

theorem bshapeRev_nil (s : List ℕ) : bshapeRev s [] = s := by cases s <;> simp [bshapeRev]

theorem bshape_nil (s : List ℕ) : bshape s [] = s := by simp [bshape, bshapeRev_nil]

theorem bsrc_nil (i : List ℕ) : bsrc [] i = [] := by simp [bsrc]

theorem ravel_lt : ∀ {sh i : List ℕ}, InB sh i → ravel sh i < sh.prod ∨ sh = [] := by
  intro sh
  induction sh with
  | nil => intro i _; exact Or.inr rfl
  | cons n s ih =>
    intro i h
    left
    cases i with
    | nil => simp [InB] at h
    | cons a i =>
      obtain ⟨h1, h2⟩ := inB_cons.mp h
      simp only [ravel, List.prod_cons]
      rcases ih h2 with h3 | h3
      · calc a * s.prod + ravel s i < a * s.prod + s.prod := by omega
          _ = (a + 1) * s.prod := by ring
          _ ≤ n * s.prod := Nat.mul_le_mul_right _ h1
      · subst h3
        have := inB_nil.mp h2
        subst this
        simpa [ravel] using h1

theorem ravel_lt' {sh i : List ℕ} (h : InB sh i) : ravel sh i < sh.prod := by
  rcases ravel_lt h with h1 | h1
  · exact h1
  · subst h1; rw [inB_nil.mp h]; simp [ravel]

theorem unravel_ravel {sh i : List ℕ} (h : InB sh i) : unravel sh (ravel sh i) = i := by
  induction sh generalizing i with
  | nil => rw [inB_nil.mp h]; simp [unravel]
  | cons n s ih =>
    cases i with
    | nil => simp [InB] at h
    | cons a i =>
      obtain ⟨h1, h2⟩ := inB_cons.mp h
      have h3 := ravel_lt' h2
      have hp : 0 < s.prod := by omega
      simp only [ravel, unravel]
      have e1 : (a * s.prod + ravel s i) / s.prod = a := by
        rw [Nat.mul_comm, Nat.mul_add_div hp, Nat.div_eq_of_lt h3]; omega
      have e2 : (a * s.prod + ravel s i) % s.prod = ravel s i := by
        rw [Nat.mul_comm, Nat.mul_add_mod, Nat.mod_eq_of_lt h3]
      rw [e1, e2, ih h2]

theorem inB_unravel {sh : List ℕ} {r : ℕ} (h : r < sh.prod) : InB sh (unravel sh r) := by
  induction sh generalizing r with
  | nil => exact inB_nil.mpr rfl
  | cons n s ih =>
    have hp : 0 < s.prod := by
      rcases Nat.eq_zero_or_pos s.prod with h0 | h0
      · simp [h0] at h
      · exact h0
    refine inB_cons.mpr ⟨?_, ih (Nat.mod_lt _ hp)⟩
    rw [Nat.div_lt_iff_lt_mul hp]
    simpa using h

theorem ravel_unravel {sh : List ℕ} {r : ℕ} (h : r < sh.prod) : ravel sh (unravel sh r) = r := by
  induction sh generalizing r with
  | nil => simp at h; simp [ravel, unravel, h]
  | cons n s ih =>
    have hp : 0 < s.prod := by
      rcases Nat.eq_zero_or_pos s.prod with h0 | h0
      · simp [h0] at h
      · exact h0
    simp only [unravel, ravel]
    rw [ih (Nat.mod_lt _ hp)]
    rw [Nat.mul_comm]; exact Nat.div_add_mod r s.prod

/-- Reshaping an array of shape `sh` to `(1, 1, *sh)`. -/
theorem ravel_one_one (sh i : List ℕ) : ravel (1 :: 1 :: sh) (0 :: 0 :: i) = ravel sh i := by
  simp [ravel]

/-! ### rows -/

theorem rowOwner_zero (n : ℕ) (s : List ℕ) (r : ℕ) : rowOwner (n :: s) 0 r = r / s.prod := by simp [rowOwner, unravel]

theorem rowCoord_zero (n : ℕ) (s : List ℕ) (r : ℕ) (h : 0 < s.prod) : rowCoord (n :: s) 0 r = r % s.prod := by
  simp only [rowCoord, unravel, List.eraseIdx_zero, List.tail_cons]
  exact ravel_unravel (Nat.mod_lt _ h)

theorem rowOwner_succ (n : ℕ) (s : List ℕ) (k r : ℕ) : rowOwner (n :: s) (k + 1) r = rowOwner s k (r % s.prod) := by
  simp [rowOwner, unravel]

theorem rowCoord_succ (n : ℕ) (s : List ℕ) (k r : ℕ) :
    rowCoord (n :: s) (k + 1) r = (r / s.prod) * (s.eraseIdx k).prod + rowCoord s k (r % s.prod) := by
  simp [rowCoord, unravel, ravel]

theorem sum_range_mul {M : Type} [AddCommMonoid M] (n m : ℕ) (f : ℕ → M) :
    ∑ r ∈ Finset.range (n * m), f r = ∑ h ∈ Finset.range n, ∑ t ∈ Finset.range m, f (h * m + t) := by
  induction n with
  | zero => simp
  | succ n ih =>
    rw [Finset.sum_range_succ, ← ih, Nat.succ_mul, Finset.sum_range_add]

/-- The dense rows are the pairs of an owner and a coordinate. -/
theorem sum_rows {M : Type} [AddCommMonoid M] {sh : List ℕ} {k : ℕ} (hk : k < sh.length) (F : ℕ → ℕ → M) :
    ∑ r ∈ Finset.range sh.prod, F (rowOwner sh k r) (rowCoord sh k r) =
    ∑ o ∈ Finset.range (sh.getD k 0), ∑ c ∈ Finset.range (sh.eraseIdx k).prod, F o c := by
  induction sh generalizing k F with
  | nil => simp at hk
  | cons n s ih =>
    rw [List.prod_cons, sum_range_mul]
    cases k with
    | zero =>
      simp only [List.eraseIdx_zero, List.tail_cons, List.getD_cons_zero]
      refine Finset.sum_congr rfl fun h _ => Finset.sum_congr rfl fun t ht => ?_
      have ht' := Finset.mem_range.mp ht
      have hp : 0 < s.prod := by omega
      rw [rowOwner_zero, rowCoord_zero _ _ _ hp, Nat.mul_comm, Nat.mul_add_div hp, Nat.mul_add_mod,
        Nat.div_eq_of_lt ht', Nat.mod_eq_of_lt ht', Nat.add_zero]
    | succ k =>
      have hk' : k < s.length := by simpa using hk
      simp only [List.eraseIdx_cons_succ, List.getD_cons_succ, List.prod_cons]
      have e : ∀ h ∈ Finset.range n, ∑ t ∈ Finset.range s.prod, F (rowOwner (n :: s) (k + 1) (h * s.prod + t)) (rowCoord (n :: s) (k + 1) (h * s.prod + t)) =
          ∑ o ∈ Finset.range (s.getD k 0), ∑ c ∈ Finset.range (s.eraseIdx k).prod, F o (h * (s.eraseIdx k).prod + c) := by
        intro h _
        rw [← ih hk' (fun o c => F o (h * (s.eraseIdx k).prod + c))]
        refine Finset.sum_congr rfl fun t ht => ?_
        have ht' := Finset.mem_range.mp ht
        have hp : 0 < s.prod := by omega
        rw [rowOwner_succ, rowCoord_succ, Nat.mul_comm h, Nat.mul_add_div hp, Nat.mul_add_mod,
          Nat.div_eq_of_lt ht', Nat.mod_eq_of_lt ht', Nat.add_zero]
      rw [Finset.sum_congr rfl e, Finset.sum_comm]
      refine Finset.sum_congr rfl fun o _ => ?_
      rw [sum_range_mul]

end Jaqmc.Sparse
