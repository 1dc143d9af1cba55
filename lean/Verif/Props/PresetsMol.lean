import Verif.Model.Presets
import Verif.Spec.Presets
import Mathlib.Tactic.LinearCombination
/-!
C111, continued: the geometry builders for molecules.
-/
namespace Jaqmc.Presets.Props
open Jaqmc.Presets Jaqmc.Presets.Spec Jaqmc.Geometry
open Jaqmc.MolEnergy (angstromInBohr)

/-! ### Diatomic molecules -/

/-- A capital followed by small letters. -/
def IsSymbol (s : List Char) : Prop := ∃ c l, s = c :: l ∧ c.isUpper = true ∧ ∀ x ∈ l, x.isLower = true

theorem upper_not_lower (c : Char) (h : c.isUpper = true) : c.isLower = false := by
  unfold Char.isUpper at h
  unfold Char.isLower
  simp only [decide_eq_true_eq, Bool.and_eq_true] at h
  simp only [Bool.and_eq_false_imp, decide_eq_true_eq, decide_eq_false_iff_not]
  intro h1
  exfalso
  have h2 := h.2
  exact absurd (UInt32.le_trans h1 h2) (by decide)

theorem takeWhile_lower (l : List Char) (hl : ∀ x ∈ l, x.isLower = true) (t : List Char) (ht : t = [] ∨ IsSymbol t) :
    (l ++ t).takeWhile Char.isLower = l ∧ (l ++ t).dropWhile Char.isLower = t := by
  have h0 : t.takeWhile Char.isLower = [] ∧ t.dropWhile Char.isLower = t := by
    rcases ht with rfl | ⟨c, l', rfl, hc, _⟩
    · simp
    · simp [upper_not_lower c hc]
  induction l with
  | nil => simpa using h0
  | cons a l ih =>
    have ha := hl a (by simp)
    obtain ⟨h1, h2⟩ := ih fun x hx => hl x (by simp [hx])
    rw [List.cons_append, List.takeWhile_cons, List.dropWhile_cons, if_pos ha, if_pos ha, h1, h2]
    exact ⟨rfl, rfl⟩

theorem find_symbol (s t : List Char) (hs : IsSymbol s) (ht : t = [] ∨ IsSymbol t) : findSymbols (s ++ t) = s :: findSymbols t := by
  obtain ⟨c, l, rfl, hc, hl⟩ := hs
  rw [List.cons_append, findSymbols, if_pos hc, (takeWhile_lower l hl t ht).1, (takeWhile_lower l hl t ht).2]

theorem find_two (s t : List Char) (hs : IsSymbol s) (ht : IsSymbol t) : findSymbols (s ++ t) = [s, t] := by
  rw [find_symbol s t hs (Or.inr ht)]
  have := find_symbol t [] ht (Or.inl rfl)
  rw [List.append_nil] at this
  rw [this, findSymbols]

theorem symbol_last (t : List Char) (ht : IsSymbol t) : ∃ c, t.getLast? = some c ∧ (c.isUpper = true ∨ c.isLower = true) := by
  obtain ⟨c, l, rfl, hc, hl⟩ := ht
  cases hl' : l.getLast? with
  | none =>
    have : l = [] := List.getLast?_eq_none_iff.mp hl'
    subst this
    exact ⟨c, rfl, Or.inl hc⟩
  | some d =>
    refine ⟨d, ?_, Or.inr (hl d (List.mem_of_getLast? hl'))⟩
    rw [List.getLast?_cons, hl']
    rfl

/-- C111 (formulas): a formula is read as two elements exactly when it is the two symbols one after the other, or one symbol
followed by `2`; every other formula is refused. -/
theorem c111_formula (known : List Char → Bool) (hk : ∀ s, known s = true → IsSymbol s) (formula s t : List Char) :
    parseDiatomic known formula = some (s, t) ↔
      known s = true ∧ known t = true ∧ (formula = s ++ t ∨ (s = t ∧ formula = s ++ ['2'])) := by
  have gen : ∀ s t, parseTwo known formula = some (s, t) ↔ known s = true ∧ known t = true ∧ formula = s ++ t := by
    intro s t
    unfold parseTwo
    constructor
    · intro h
      split at h
      · rename_i s' t' heq
        split at h
        · cases h
        rename_i hne
        split at h
        · rename_i hkk
          obtain ⟨rfl, rfl⟩ := Prod.mk.inj (Option.some.inj h)
          rw [Bool.and_eq_true] at hkk
          exact ⟨hkk.1, hkk.2, (not_not.mp hne).symm⟩
        · cases h
      · cases h
    · rintro ⟨h1, h2, rfl⟩
      rw [find_two s t (hk s h1) (hk t h2)]
      simp [h1, h2]
  unfold parseDiatomic
  split
  · rename_i hlast
    have hform : formula = formula.dropLast ++ ['2'] := by
      obtain ⟨l, hl⟩ := List.getLast?_eq_some_iff.mp hlast
      rw [hl]
      simp
    have hnot : ∀ s t, known s = true → known t = true → formula ≠ s ++ t := by
      intro s t h1 h2 he
      obtain ⟨c, hc1, hc2⟩ := symbol_last t (hk t h2)
      rw [he, List.getLast?_append, hc1] at hlast
      have : c = '2' := by simpa using hlast
      subst this
      revert hc2
      decide
    split
    · rename_i hkn
      constructor
      · intro h
        obtain ⟨rfl, rfl⟩ := Prod.mk.inj (Option.some.inj h)
        exact ⟨hkn, hkn, Or.inr ⟨rfl, hform⟩⟩
      · rintro ⟨h1, h2, h | ⟨rfl, h⟩⟩
        · exact absurd h (hnot s t h1 h2)
        · rw [h]; simp
    · rename_i hkn
      rw [gen]
      constructor
      · rintro ⟨h1, h2, h3⟩
        exact ⟨h1, h2, Or.inl h3⟩
      · rintro ⟨h1, h2, h | ⟨rfl, h⟩⟩
        · exact ⟨h1, h2, h⟩
        · rw [h] at hkn
          simp [h1] at hkn
  · rename_i hlast
    rw [gen]
    constructor
    · rintro ⟨h1, h2, h3⟩
      exact ⟨h1, h2, Or.inl h3⟩
    · rintro ⟨h1, h2, h | ⟨rfl, h⟩⟩
      · exact ⟨h1, h2, h⟩
      · rw [h] at hlast
        simp at hlast

/-- C111 (diatomic molecules): the two atoms of the formula lie on the z axis, symmetric about the origin, at the bond length (in bohr) from each
other. -/
theorem c111_diatomic (known : List Char → Bool) (formula s t : List Char) (b : ℝ) (hb : 0 ≤ b) (ang : Bool)
    (h : parseDiatomic known formula = some (s, t)) :
    ∃ p q : Vec 3, diatomic known formula b ang = some [(s, p), (t, q)] ∧ (∀ k, p k = -q k) ∧ q 0 = 0 ∧ q 1 = 0 ∧ 0 ≤ q 2 ∧
      separation p q = if ang then b * angstrom else b := by
  refine ⟨_, _, by unfold diatomic; rw [h]; rfl, ?_, rfl, rfl, ?_, ?_⟩
  · intro k
    fin_cases k <;> simp
  · simp only [Matrix.cons_val]
    have : 0 ≤ angstromInBohr := by unfold angstromInBohr; positivity
    cases ang
    · simp; linarith
    · simp; positivity
  · have hx : (if ang then b * angstrom else b) = if ang then b * angstromInBohr else b := rfl
    rw [hx]
    have hpos : 0 ≤ if ang then b * angstromInBohr else b := by
      have : 0 ≤ angstromInBohr := by unfold angstromInBohr; positivity
      split <;> positivity
    generalize (if ang = true then b * angstromInBohr else b) = β at hpos
    unfold separation
    simp only [Fin.sum_univ_three, Matrix.cons_val_zero, Matrix.cons_val_one, Matrix.cons_val]
    rw [show (0 - 0 : ℝ) ^ 2 + (0 - 0) ^ 2 + (-1 * (β / 2) - 1 * (β / 2)) ^ 2 = β ^ 2 by ring, Real.sqrt_sq hpos]

/-- Lithium hydride and chlorine, and some formulas that are refused. -/
example : let known : List Char → Bool := fun s => decide (s ∈ [['L', 'i'], ['H'], ['C', 'l'], ['C'], ['O']])
    parseDiatomic known ['L', 'i', 'H'] = some (['L', 'i'], ['H']) ∧ parseDiatomic known ['C', 'l', '2'] = some (['C', 'l'], ['C', 'l']) ∧
      parseDiatomic known ['C', 'O'] = some (['C'], ['O']) ∧ ∀ s t, parseDiatomic known ['C', 'o'] ≠ some (s, t) := by
  intro known
  have hk : ∀ s, known s = true → IsSymbol s := by
    intro s hs
    simp only [known, decide_eq_true_eq, List.mem_cons, List.not_mem_nil, or_false] at hs
    rcases hs with rfl | rfl | rfl | rfl | rfl
    · exact ⟨'L', ['i'], rfl, by decide, by decide⟩
    · exact ⟨'H', [], rfl, by decide, by decide⟩
    · exact ⟨'C', ['l'], rfl, by decide, by decide⟩
    · exact ⟨'C', [], rfl, by decide, by decide⟩
    · exact ⟨'O', [], rfl, by decide, by decide⟩
  refine ⟨(c111_formula known hk _ _ _).mpr ⟨by decide, by decide, Or.inl rfl⟩,
    (c111_formula known hk _ _ _).mpr ⟨by decide, by decide, Or.inr ⟨rfl, rfl⟩⟩,
    (c111_formula known hk _ _ _).mpr ⟨by decide, by decide, Or.inl rfl⟩, fun s t h => ?_⟩
  obtain ⟨h1, h2, h3⟩ := (c111_formula known hk _ _ _).mp h
  simp only [known, decide_eq_true_eq, List.mem_cons, List.not_mem_nil, or_false] at h1 h2
  rcases h1 with rfl | rfl | rfl | rfl | rfl <;> rcases h2 with rfl | rfl | rfl | rfl | rfl <;> simp at h3

/-! ### Alkanes -/

theorem block_get {α : Type} (f : ℕ → List α) (m : ℕ) (hf : ∀ i, (f i).length = m) (n i k : ℕ) (hi : i < n) (hk : k < m) :
    ((List.range n).flatMap f)[m * i + k]? = (f i)[k]? := by
  have hlen : ∀ n, ((List.range n).flatMap f).length = m * n := by
    intro n
    induction n with
    | zero => simp
    | succ n ih => rw [List.range_succ, List.flatMap_append, List.length_append, ih]; simp [hf]; ring
  induction n with
  | zero => omega
  | succ n ih =>
    rw [List.range_succ, List.flatMap_append]
    simp only [List.flatMap_singleton]
    by_cases hin : i < n
    · rw [List.getElem?_append_left, ih hin]
      rw [hlen]
      calc m * i + k < m * i + m := by omega
        _ = m * (i + 1) := by ring
        _ ≤ m * n := Nat.mul_le_mul_left m hin
    · obtain rfl : i = n := by omega
      rw [List.getElem?_append_right (by rw [hlen]; omega), hlen]
      congr 1
      omega

/-- The atoms of an alkane by role: the carbons `0 … 2n-1` along the chain, the two hydrogens of each, and the two ends. -/
structure Chain (atoms : List Placed) (n : ℕ) (C : ℕ → Vec 3) (H : ℕ → Bool → Vec 3) (left right : Vec 3) : Prop where
  length : atoms.length = 6 * n + 2
  carbon : ∀ j < 2 * n, ∃ s, atoms[1 + 6 * (j / 2) + j % 2]? = some ⟨"C", C j, s⟩
  hydrogen : ∀ j < 2 * n, ∀ b, ∃ s, atoms[3 + 6 * (j / 2) + 2 * (j % 2) + (if b then 1 else 0)]? = some ⟨"H", H j b, s⟩
  left : ∃ s, atoms[0]? = some ⟨"H", left, s⟩
  right : ∃ s, atoms[6 * n + 1]? = some ⟨"H", right, s⟩

/-- The scalar product of the bonds from `p` to `q` and to `r`. -/
def bonds (p q r : Vec 3) : ℝ := dot (fun k => q k - p k) (fun k => r k - p k)

theorem norm_scaled (u : Vec 3) (κ : ℝ) (hκ : 0 ≤ κ) (r : ℝ) (hr : 0 ≤ r) (p q : Vec 3) (h : ∀ k, q k - p k = u k * κ) (hu : ∑ k, u k ^ 2 = r ^ 2) :
    separation p q = r * κ := by
  unfold separation
  have : ∑ k, (p k - q k) ^ 2 = (r * κ) ^ 2 := by
    rw [mul_pow, ← hu, Finset.sum_mul]
    refine Finset.sum_congr rfl fun k _ => ?_
    rw [← neg_sub, h k]
    ring
  rw [this, Real.sqrt_sq (by positivity)]

/-- The side of the axis on which carbon `j` lies. -/
noncomputable def side (j : ℕ) : ℝ := if j % 2 = 0 then -1 else 1

theorem side_succ (j : ℕ) : side (j + 1) = -side j := by
  unfold side
  rcases Nat.mod_two_eq_zero_or_one j with h | h
  · rw [if_neg (by omega), if_pos h]; norm_num
  · rw [if_pos (by omega), if_neg (by omega)]

theorem side_sq (j : ℕ) : side j ^ 2 = 1 := by
  unfold side
  split <;> norm_num

/-- Carbon `j` of the chain. -/
noncomputable def carbonAt (j : ℕ) : Vec 3 := fun k =>
  (![(j - 0.5) * (1.55 * Real.sin (tetra / 2)), 0.5 * side j * (1.55 * Real.cos (tetra / 2)), 0] : Vec 3) k * angstromInBohr

/-- The hydrogens of carbon `j`. -/
noncomputable def hydrogenAt (j : ℕ) (b : Bool) : Vec 3 := fun k =>
  (![(j - 0.5) * (1.55 * Real.sin (tetra / 2)), side j * (0.5 * (1.55 * Real.cos (tetra / 2)) + 1.09 * Real.cos (tetra / 2)),
    (if b then -1 else 1) * (1.09 * Real.sin (tetra / 2))] : Vec 3) k * angstromInBohr

/-- The left end. -/
noncomputable def leftAt : Vec 3 := fun k =>
  (![-(1.09 * Real.sin (tetra / 2)) - 0.5 * (1.55 * Real.sin (tetra / 2)), 1.09 * Real.cos (tetra / 2) - 0.5 * (1.55 * Real.cos (tetra / 2)), 0] : Vec 3) k *
    angstromInBohr

/-- The right end. -/
noncomputable def rightAt (n : ℕ) : Vec 3 := fun k =>
  (![1.09 * Real.sin (tetra / 2) + (2 * n - 1 - 0.5) * (1.55 * Real.sin (tetra / 2)),
    -(1.09 * Real.cos (tetra / 2)) + 0.5 * (1.55 * Real.cos (tetra / 2)), 0] : Vec 3) k * angstromInBohr

theorem cos_tetra : cosDeg 109.4712 = Real.cos (tetra / 2) ^ 2 - Real.sin (tetra / 2) ^ 2 := by
  have h := Real.cos_two_mul' (tetra / 2)
  rw [← h]
  unfold cosDeg tetra rad
  congr 1
  ring

theorem angstrom_pos : 0 ≤ angstromInBohr := by unfold angstromInBohr; positivity

/-- The six atoms of unit `i`. -/
noncomputable def unit (c : ℤ) (i : ℕ) : List Placed :=
  [⟨"C", carbonAt (2 * i), (c / 2, c / 2)⟩, ⟨"C", carbonAt (2 * i + 1), (c / 2, c / 2)⟩, ⟨"H", hydrogenAt (2 * i) false, (0, 1)⟩,
    ⟨"H", hydrogenAt (2 * i) true, (1, 0)⟩, ⟨"H", hydrogenAt (2 * i + 1) false, (0, 1)⟩, ⟨"H", hydrogenAt (2 * i + 1) true, (1, 0)⟩]

theorem fixed_sum (n : ℕ) (x : ℤ) :
    ((([(1, 0)] ++ (List.range n).flatMap (fun _ => [(x, x), (x, x), (0, 1), (1, 0), (0, 1), (1, 0)]) ++ [(0, 1)] : List (ℤ × ℤ)).map
      fun s => s.1 - s.2).sum) = 0 := by
  have : (((List.range n).flatMap (fun _ => [(x, x), (x, x), (0, 1), (1, 0), (0, 1), (1, 0)]) : List (ℤ × ℤ)).map fun s => s.1 - s.2).sum = 0 := by
    induction n with
    | zero => simp
    | succ n ih => rw [List.range_succ, List.flatMap_append, List.map_append, List.sum_append, ih]; simp
  rw [List.map_append, List.map_append, List.sum_append, List.sum_append, this]
  simp

theorem side_even (i : ℕ) : side (2 * i) = -1 := by unfold side; rw [if_pos (by omega)]

theorem side_odd (i : ℕ) : side (2 * i + 1) = 1 := by unfold side; rw [if_neg (by omega)]

theorem alkane_eq (n : ℕ) (hn : 1 ≤ n) (c : ℤ) :
    alkane n c = some ([⟨"H", leftAt, (1, 0)⟩] ++ (List.range n).flatMap (unit c) ++ [⟨"H", rightAt n, (0, 1)⟩], 0) := by
  unfold alkane
  rw [if_neg (by omega)]
  dsimp only
  rw [fixed_sum]
  congr 1
  refine Prod.ext ?_ (by simp)
  dsimp only
  congr 1
  · congr 1
    congr 1
    funext i
    unfold unit makeAtom
    simp only [List.cons.injEq, Placed.mk.injEq, true_and, and_true]
    refine ⟨?_, ?_, ?_, ?_, ?_, ?_⟩ <;> funext k <;>
      simp only [carbonAt, hydrogenAt, side_even, side_odd, shift] <;> congr 1 <;> fin_cases k <;> simp <;> ring
  · unfold makeAtom
    simp only [List.cons.injEq, Placed.mk.injEq, true_and, and_true]
    funext k
    simp only [rightAt, shift]
    congr 1
    fin_cases k <;> simp [Nat.cast_sub hn] <;> ring

theorem units (n : ℕ) (c : ℤ) : ((List.range n).flatMap (unit c)).length = 6 * n ∧
    ((List.range n).flatMap (unit c)).countP (fun a => a.symbol = "C") = 2 * n ∧
    ((List.range n).flatMap (unit c)).countP (fun a => a.symbol = "H") = 4 * n ∧
    (((List.range n).flatMap (unit c)).map fun a => a.spins.1).sum = n * (2 * (c / 2)) + 2 * n ∧
    (((List.range n).flatMap (unit c)).map fun a => a.spins.2).sum = n * (2 * (c / 2)) + 2 * n := by
  induction n with
  | zero => simp
  | succ n ih =>
    obtain ⟨h1, h2, h3, h4, h5⟩ := ih
    simp only [List.range_succ, List.flatMap_append, List.map_append, List.sum_append, List.length_append, List.countP_append, h1, h2, h3, h4, h5,
      List.flatMap_singleton]
    refine ⟨by simp [unit]; ring, by simp [unit]; ring, by simp [unit]; ring, ?_, ?_⟩
    · simp [unit]; ring
    · simp [unit]; ring

theorem alkane_chain (n : ℕ) (hn : 1 ≤ n) (c : ℤ) :
    Chain ([⟨"H", leftAt, (1, 0)⟩] ++ (List.range n).flatMap (unit c) ++ [⟨"H", rightAt n, (0, 1)⟩]) n carbonAt hydrogenAt leftAt (rightAt n) := by
  have hl := (units n c).1
  have get : ∀ i k, i < n → k < 6 → ([⟨"H", leftAt, (1, 0)⟩] ++ (List.range n).flatMap (unit c) ++ [⟨"H", rightAt n, (0, 1)⟩])[1 + (6 * i + k)]? =
      (unit c i)[k]? := by
    intro i k hi hk
    rw [List.getElem?_append_left (by simp only [List.length_append, hl, List.length_cons, List.length_nil]; omega),
      List.getElem?_append_right (by simp)]
    rw [show 1 + (6 * i + k) - [(⟨"H", leftAt, (1, 0)⟩ : Placed)].length = 6 * i + k by simp]
    exact block_get (unit c) 6 (fun i => by simp [unit]) n i k hi hk
  refine ⟨?_, ?_, ?_, ⟨_, rfl⟩, ?_⟩
  · simp only [List.length_append, hl, List.length_cons, List.length_nil]; omega
  · intro j hj
    rw [show 1 + 6 * (j / 2) + j % 2 = 1 + (6 * (j / 2) + j % 2) by omega, get _ _ (by omega) (by omega)]
    obtain ⟨i, rfl | rfl⟩ : ∃ i, j = 2 * i ∨ j = 2 * i + 1 := ⟨j / 2, by omega⟩
    · rw [show 2 * i / 2 = i by omega, show 2 * i % 2 = 0 by omega]
      exact ⟨_, rfl⟩
    · rw [show (2 * i + 1) / 2 = i by omega, show (2 * i + 1) % 2 = 1 by omega]
      exact ⟨_, rfl⟩
  · intro j hj b
    rw [show 3 + 6 * (j / 2) + 2 * (j % 2) + (if b then 1 else 0) = 1 + (6 * (j / 2) + (2 + 2 * (j % 2) + if b then 1 else 0)) by omega,
      get _ _ (by omega) (by split <;> omega)]
    obtain ⟨i, rfl | rfl⟩ : ∃ i, j = 2 * i ∨ j = 2 * i + 1 := ⟨j / 2, by omega⟩
    · rw [show 2 * i / 2 = i by omega, show 2 * i % 2 = 0 by omega]
      cases b <;> exact ⟨_, rfl⟩
    · rw [show (2 * i + 1) / 2 = i by omega, show (2 * i + 1) % 2 = 1 by omega]
      cases b <;> exact ⟨_, rfl⟩
  · refine ⟨(0, 1), ?_⟩
    rw [List.getElem?_append_right (by simp only [List.length_append, hl, List.length_cons, List.length_nil]; omega)]
    rw [show 6 * n + 1 - ([(⟨"H", leftAt, (1, 0)⟩ : Placed)] ++ (List.range n).flatMap (unit c)).length = 0 by
      simp only [List.length_append, hl, List.length_cons, List.length_nil]; omega]
    rfl

/-- C111 (alkanes): `C_{2n} H_{4n+2}` with every bond of the chain 1.55 Å, every C-H bond 1.09 Å, and the C-C-C, H-C-H and terminal H-C-C angles
tetrahedral (109.4712 degrees), in bohr. -/
theorem c111_alkane (n : ℕ) (hn : 1 ≤ n) (c : ℤ) :
    ∃ atoms s C H left right, alkane n c = some (atoms, s) ∧ Chain atoms n C H left right ∧
      atoms.countP (fun a => a.symbol = "C") = 2 * n ∧ atoms.countP (fun a => a.symbol = "H") = 4 * n + 2 ∧
      (∀ j, j + 1 < 2 * n → separation (C j) (C (j + 1)) = 1.55 * angstrom) ∧
      (∀ j < 2 * n, ∀ b, separation (C j) (H j b) = 1.09 * angstrom) ∧
      separation (C 0) left = 1.09 * angstrom ∧ separation (C (2 * n - 1)) right = 1.09 * angstrom ∧
      (∀ j, j + 2 < 2 * n → bonds (C (j + 1)) (C j) (C (j + 2)) = (1.55 * angstrom) ^ 2 * cosDeg 109.4712) ∧
      (∀ j < 2 * n, bonds (C j) (H j true) (H j false) = (1.09 * angstrom) ^ 2 * cosDeg 109.4712) ∧
      bonds (C 0) left (C 1) = 1.09 * 1.55 * angstrom ^ 2 * cosDeg 109.4712 ∧
      bonds (C (2 * n - 1)) right (C (2 * n - 2)) = 1.09 * 1.55 * angstrom ^ 2 * cosDeg 109.4712 := by
  obtain ⟨h1, h2, h3, -, -⟩ := units n c
  refine ⟨_, _, _, _, _, _, alkane_eq n hn c, alkane_chain n hn c, ?_, ?_, ?_⟩
  · rw [List.countP_append, List.countP_append, h2]; simp
  · rw [List.countP_append, List.countP_append, h3]; simp; ring
  rw [cos_tetra]
  have ha : angstrom = angstromInBohr := rfl
  rw [ha]
  have hp := angstrom_pos
  have hsc := Real.sin_sq_add_cos_sq (tetra / 2)
  obtain ⟨m, rfl⟩ : ∃ m, n = m + 1 := ⟨n - 1, by omega⟩
  rw [show 2 * (m + 1) - 1 = 2 * m + 1 by omega, show 2 * (m + 1) - 2 = 2 * m by omega]
  refine ⟨?_, ?_, ?_, ?_, ?_, ?_, ?_, ?_⟩
  · intro j _
    refine norm_scaled ![1.55 * Real.sin (tetra / 2), -side j * (1.55 * Real.cos (tetra / 2)), 0] _ hp _ (by norm_num) _ _ ?_ ?_
    · intro k
      simp only [carbonAt, side_succ, ← sub_mul]
      congr 1
      fin_cases k <;> simp <;> ring
    · have := side_sq j
      simp only [Fin.sum_univ_three, Matrix.cons_val_zero, Matrix.cons_val_one, Matrix.cons_val]
      linear_combination 1.55 ^ 2 * hsc + 1.55 ^ 2 * Real.cos (tetra / 2) ^ 2 * this
  · intro j _ b
    refine norm_scaled ![0, side j * (1.09 * Real.cos (tetra / 2)), (if b then -1 else 1) * (1.09 * Real.sin (tetra / 2))] _ hp _ (by norm_num) _ _ ?_ ?_
    · intro k
      simp only [carbonAt, hydrogenAt, ← sub_mul]
      congr 1
      fin_cases k <;> simp <;> ring
    · have := side_sq j
      simp only [Fin.sum_univ_three, Matrix.cons_val_zero, Matrix.cons_val_one, Matrix.cons_val]
      have hb : (if b = true then (-1 : ℝ) else 1) ^ 2 = 1 := by split <;> norm_num
      linear_combination 1.09 ^ 2 * hsc + 1.09 ^ 2 * Real.cos (tetra / 2) ^ 2 * this + 1.09 ^ 2 * Real.sin (tetra / 2) ^ 2 * hb
  · refine norm_scaled ![-(1.09 * Real.sin (tetra / 2)), 1.09 * Real.cos (tetra / 2), 0] _ hp _ (by norm_num) _ _ ?_ ?_
    · intro k
      simp only [carbonAt, leftAt, ← sub_mul, side]
      congr 1
      fin_cases k <;> simp <;> ring
    · simp only [Fin.sum_univ_three, Matrix.cons_val_zero, Matrix.cons_val_one, Matrix.cons_val]
      linear_combination 1.09 ^ 2 * hsc
  · refine norm_scaled ![1.09 * Real.sin (tetra / 2), -(1.09 * Real.cos (tetra / 2)), 0] _ hp _ (by norm_num) _ _ ?_ ?_
    · intro k
      simp only [carbonAt, rightAt, ← sub_mul, side_odd]
      congr 1
      fin_cases k <;> simp <;> ring
    · simp only [Fin.sum_univ_three, Matrix.cons_val_zero, Matrix.cons_val_one, Matrix.cons_val]
      linear_combination 1.09 ^ 2 * hsc
  · intro j _
    have := side_sq j
    simp only [bonds, dot, carbonAt, side_succ, Fin.sum_univ_three, Matrix.cons_val_zero, Matrix.cons_val_one, Matrix.cons_val, ← sub_mul]
    push_cast
    linear_combination 1.55 ^ 2 * angstromInBohr ^ 2 * Real.cos (tetra / 2) ^ 2 * this
  · intro j _
    have := side_sq j
    simp only [bonds, dot, carbonAt, hydrogenAt, Fin.sum_univ_three, Matrix.cons_val_zero, Matrix.cons_val_one, Matrix.cons_val, ← sub_mul,
      if_true, Bool.false_eq_true, if_false]
    linear_combination 1.09 ^ 2 * angstromInBohr ^ 2 * Real.cos (tetra / 2) ^ 2 * this
  · simp only [bonds, dot, carbonAt, leftAt, side_even 0, side_odd 0, Fin.sum_univ_three, Matrix.cons_val_zero, Matrix.cons_val_one, Matrix.cons_val, ← sub_mul,
      side, Nat.zero_mod, Nat.one_mod, if_true, one_ne_zero, if_false]
    push_cast
    ring
  · simp only [bonds, dot, carbonAt, rightAt, side_even, side_odd, Fin.sum_univ_three, Matrix.cons_val_zero, Matrix.cons_val_one, Matrix.cons_val, ← sub_mul]
    push_cast
    ring

/-- C111 (alkanes, electrons): the initial spins of the atoms use up their electrons (for carbon an even number is left after core removal), so they
add up to the electrons of the molecule, half of them up: `s_z = 0`. -/
theorem c111_alkane_spins (n : ℕ) (hn : 1 ≤ n) (c : ℤ) (hc : Even c) :
    ∃ atoms, alkane n c = some (atoms, 0) ∧ (∀ a ∈ atoms, a.spins.1 + a.spins.2 = if a.symbol = "C" then c else 1) ∧
      (atoms.map fun a => a.spins.1).sum = n * c + 2 * n + 1 ∧ (atoms.map fun a => a.spins.2).sum = n * c + 2 * n + 1 := by
  obtain ⟨-, -, -, h4, h5⟩ := units n c
  have hcc : 2 * (c / 2) = c := Int.mul_ediv_cancel' hc.two_dvd
  rw [hcc] at h4 h5
  refine ⟨_, alkane_eq n hn c, ?_, ?_, ?_⟩
  · intro a ha
    simp only [List.mem_append, List.mem_flatMap, unit, List.mem_cons, List.not_mem_nil, or_false] at ha
    rcases ha with (rfl | ⟨i, -, rfl | rfl | rfl | rfl | rfl | rfl⟩) | rfl <;> simp <;> omega
  · rw [List.map_append, List.map_append, List.sum_append, List.sum_append, h4]; simp; ring
  · rw [List.map_append, List.map_append, List.sum_append, List.sum_append, h5]; simp

/-- Butane with all electrons: 14 atoms, 34 electrons. -/
example : ∃ atoms, alkane 2 6 = some (atoms, 0) ∧ atoms.length = 14 ∧ (atoms.map fun a => a.spins.1).sum = 17 := by
  obtain ⟨atoms, h, -, hu, -⟩ := c111_alkane_spins 2 (by norm_num) 6 ⟨3, rfl⟩
  obtain ⟨atoms', s, _, _, _, _, h', hc, _⟩ := c111_alkane 2 (by norm_num) 6
  rw [h] at h'
  obtain ⟨rfl, rfl⟩ := Prod.mk.inj (Option.some.inj h')
  exact ⟨atoms, h, hc.length, by rw [hu]; norm_num⟩

/-- C111 (alkanes): no units, no alkane. -/
theorem c111_alkane_refused (c : ℤ) : alkane 0 c = none := by
  unfold alkane
  simp

end Jaqmc.Presets.Props
