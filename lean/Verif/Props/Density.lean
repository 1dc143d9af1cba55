import Verif.Model.Density
import Verif.Spec.Density
import Verif.Props.Stats
import Mathlib.Algebra.BigOperators.Field
/-! C95: the density histograms count every electron in the cell where it is. -/
namespace Jaqmc.Density.Props
open Jaqmc.Stats Jaqmc.Stats.Spec Jaqmc.Geometry Matrix Jaqmc.Density.Spec
open scoped Classical BigOperators

theorem edges_length (bins : ℕ) (R : ℝ × ℝ) : (edges bins R).length = bins + 1 := by simp [edges]

theorem edges_get {bins : ℕ} {R : ℝ × ℝ} {i : ℕ} (h : i < bins + 1) : (edges bins R)[i]? = some (R.1 + i * ((R.2 - R.1) / bins)) := by
  simp only [edges, List.getElem?_map, List.getElem?_range h, Option.map_some]

theorem edges_sorted {bins : ℕ} {R : ℝ × ℝ} (hb : 0 < bins) (hR : R.1 < R.2) : (edges bins R).Pairwise (· < ·) ∧ 2 ≤ (edges bins R).length := by
  refine ⟨?_, by rw [edges_length]; omega⟩
  unfold edges
  rw [List.pairwise_map]
  refine List.pairwise_lt_range.imp fun {a b} hab => ?_
  have hw : 0 < (R.2 - R.1) / bins := div_pos (by linarith) (by exact_mod_cast hb)
  have : (a : ℝ) < b := by exact_mod_cast hab
  nlinarith

theorem inBin_edges {bins : ℕ} {R : ℝ × ℝ} (hb : 0 < bins) (k : ℕ) (x : ℝ) : InBin (edges bins R) k x ↔ Cell R.1 R.2 bins k x := by
  have hb' : (bins : ℝ) ≠ 0 := by exact_mod_cast hb.ne'
  unfold InBin Cell
  constructor
  · rintro ⟨lo, hi, h1, h2, h3, h4⟩
    have hk : k + 1 < bins + 1 := by
      have := (List.getElem?_eq_some_iff.1 h2).1
      rwa [edges_length] at this
    rw [edges_get (by omega)] at h1
    rw [edges_get hk] at h2
    cases h1; cases h2
    refine ⟨by omega, h3, ?_⟩
    rcases h4 with h4 | ⟨h4, h5⟩
    · left; push_cast at h4; exact h4
    · right
      rw [edges_length] at h5
      refine ⟨?_, by omega⟩
      have : k + 1 = bins := by omega
      rw [h4, this]
      field_simp
      ring
  · rintro ⟨hk, h3, h4⟩
    refine ⟨_, _, edges_get (by omega), edges_get (by omega), h3, ?_⟩
    rcases h4 with h4 | ⟨h4, h5⟩
    · left; push_cast; exact h4
    · right
      rw [edges_length]
      refine ⟨?_, by omega⟩
      rw [h4, h5]
      field_simp
      ring

theorem inBins_map {A : Type} (axes : List A) (bins : A → ℕ) (R : A → ℝ × ℝ) (coord : A → ℝ) (hb : ∀ a ∈ axes, 0 < bins a) (idx : List ℕ)
    (hl : idx.length = axes.length) :
    InBins (axes.map fun a => edges (bins a) (R a)) idx (axes.map coord) ↔
      ∀ p ∈ axes.zip idx, Cell (R p.1).1 (R p.1).2 (bins p.1) p.2 (coord p.1) := by
  induction axes generalizing idx with
  | nil =>
    cases idx with
    | nil => simp [InBins]
    | cons _ _ => simp at hl
  | cons a l ih =>
    cases idx with
    | nil => simp at hl
    | cons i is =>
      simp only [List.map_cons, InBins, List.zip_cons_cons, List.forall_mem_cons]
      rw [inBin_edges (hb a (by simp)), ih (fun b h => hb b (by simp [h])) is (by simpa using hl)]

theorem sum_lengths {X : Type} (q : X → Bool) (l : List (List (List (List X)))) :
    (l.map fun s => (s.map fun w => (((w.flatten.filter q).length : ℕ) : ℝ)).sum).sum = ((l.flatten.flatten.flatten.filter q).length : ℝ) := by
  induction l with
  | nil => simp
  | cons s l ih =>
    have hs : (s.map fun w => (((w.flatten.filter q).length : ℕ) : ℝ)).sum = ((s.flatten.flatten.filter q).length : ℝ) := by
      clear ih
      induction s with
      | nil => simp
      | cons w s ih =>
        rw [List.map_cons, List.sum_cons, ih, List.flatten_cons, List.flatten_append, List.filter_append, List.length_append]
        push_cast
        ring
    rw [List.map_cons, List.sum_cons, ih, hs, List.flatten_cons, List.flatten_append, List.flatten_append, List.filter_append, List.length_append]
    push_cast
    ring

/-- The histogram of a whole run counts the electrons in the cell. -/
theorem density_count {X A : Type} (axes : List A) (bins : A → ℕ) (R : A → ℝ × ℝ) (coord : A → X → ℝ) (hb : ∀ a ∈ axes, 0 < bins a)
    (hR : ∀ a ∈ axes, (R a).1 < (R a).2) (run : List (List (List (List X)))) (idx : List ℕ) (hl : idx.length = axes.length)
    (hi : ∀ p ∈ axes.zip idx, p.2 < bins p.1) :
    density (axes.map fun a => edges (bins a) (R a)) (fun x => axes.map fun a => coord a x) run idx =
      countRun run fun x => ∀ p ∈ axes.zip idx, Cell (R p.1).1 (R p.1).2 (bins p.1) p.2 (coord p.1 x) := by
  unfold density countRun
  rw [(Jaqmc.Stats.Props.c20_sum (R := ℝ) _ _ _).1, ← sum_lengths]
  rw [List.map_map]
  congr 1
  refine List.map_congr_left fun s _ => ?_
  simp only [Function.comp, List.map_map]
  congr 1
  refine List.map_congr_left fun w _ => ?_
  simp only [Function.comp]
  rw [Jaqmc.Stats.Props.c20_counts]
  · rw [List.filter_map, List.length_map]
    norm_cast
    congr 1
    refine List.filter_congr fun x _ => ?_
    simp only [Function.comp]
    rw [decide_eq_decide]
    exact inBins_map axes bins R (fun a => coord a x) hb idx hl
  · intro e he
    obtain ⟨a, ha, rfl⟩ := List.mem_map.1 he
    exact edges_sorted (hb a ha) (hR a ha)
  · intro x hx
    obtain ⟨y, _, rfl⟩ := List.mem_map.1 hx
    simp
  · simpa using hl
  · intro p hp
    rw [List.zip_map_left] at hp
    obtain ⟨q, hq, rfl⟩ := List.mem_map.1 hp
    simp only [Prod.map, id, edges_length]
    exact Nat.succ_lt_succ (hi q hq)

/-- C95, Cartesian: bin `idx` holds the number of electrons, over all devices, steps and walkers, whose component along the direction of each enabled axis lies in
the cell. -/
theorem c95_cartesian (axes : List (String × Option CAxis)) (hb : ∀ a ∈ cAxes axes, 0 < a.bins ∧ a.range.1 < a.range.2)
    (run : List (List (List (List (Vec 3))))) (idx : List ℕ) (hl : idx.length = (cAxes axes).length) (hi : ∀ p ∈ (cAxes axes).zip idx, p.2 < p.1.bins) :
    cartesianDensity axes run idx = countRun run fun r => ∀ p ∈ (cAxes axes).zip idx,
      Cell p.1.range.1 p.1.range.2 p.1.bins p.2 ((∑ j, r j * p.1.direction j) / Real.sqrt (∑ j, p.1.direction j ^ 2)) := by
  unfold cartesianDensity cEdges
  have h := density_count (cAxes axes) CAxis.bins CAxis.range (fun a r => ∑ j, r j * (a.direction j / Geometry.norm a.direction)) (fun a h => (hb a h).1)
    (fun a h => (hb a h).2) run idx hl hi
  have e : (fun x => (cAxes axes).map fun a => ∑ j, x j * (a.direction j / Geometry.norm a.direction)) = cExtract axes := rfl
  rw [e] at h
  rw [h]
  have hc : ∀ (a : CAxis) (r : Vec 3), ∑ j, r j * (a.direction j / Geometry.norm a.direction) = (∑ j, r j * a.direction j) / Real.sqrt (∑ j, a.direction j ^ 2) := by
    intro a r
    rw [Finset.sum_div]
    exact Finset.sum_congr rfl fun j _ => (mul_div_assoc _ _ _).symm
  simp only [hc]

/-! ### Fractional coordinates -/

theorem frac_unique {L : Matrix (Fin 3) (Fin 3) ℝ} (hL : L.det ≠ 0) {r f g : Fin 3 → ℝ} (hf : IsFractional L r f) (hg : IsFractional L r g) : f = g := by
  obtain ⟨f1, z, hz⟩ := hf
  obtain ⟨g1, w, hw⟩ := hg
  have hu : IsUnit L.det := isUnit_iff_ne_zero.2 hL
  have e : (fun i => f i + z i) ᵥ* L = (fun i => g i + w i) ᵥ* L := by
    funext k
    have := (hz k).symm.trans (hw k)
    simpa [vecMul, dotProduct] using this
  have e2 := congrArg (· ᵥ* L⁻¹) e
  rw [vecMul_vecMul, vecMul_vecMul, Matrix.mul_nonsing_inv _ hu, vecMul_one, vecMul_one] at e2
  funext i
  have ei := congrFun e2 i
  have : ((z i - w i : ℤ) : ℝ) = g i - f i := by push_cast; linarith
  have h1 := f1 i
  have h2 := g1 i
  have h3 : (-1 : ℝ) < ((z i - w i : ℤ) : ℝ) := by rw [this]; linarith
  have h4 : ((z i - w i : ℤ) : ℝ) < 1 := by rw [this]; linarith
  have h5 : z i - w i = 0 := by
    have a : (-1 : ℤ) < z i - w i := by exact_mod_cast h3
    have b : z i - w i < 1 := by exact_mod_cast h4
    omega
  rw [h5] at this
  push_cast at this
  linarith

/-- What the code computes: the fractional coordinates with respect to the *columns* of the lattice matrix. -/
theorem c95_transposed (L : Matrix (Fin 3) (Fin 3) ℝ) (hL : L.det ≠ 0) (r : Vec 3) : IsFractional Lᵀ r (fracCoord L⁻¹ r) := by
  have hu : IsUnit Lᵀ.det := by rw [det_transpose]; exact isUnit_iff_ne_zero.2 hL
  refine ⟨fun i => ?_, fun i => ⌊(r ᵥ* L⁻¹ᵀ) i⌋, fun k => ?_⟩
  · unfold fracCoord pmod
    rw [div_one, one_mul]
    have h1 := Int.floor_le ((r ᵥ* L⁻¹ᵀ) i)
    have h2 := Int.lt_floor_add_one ((r ᵥ* L⁻¹ᵀ) i)
    constructor <;> linarith
  · have e : ∀ i, fracCoord L⁻¹ r i + ((⌊(r ᵥ* L⁻¹ᵀ) i⌋ : ℤ) : ℝ) = (r ᵥ* L⁻¹ᵀ) i := by
      intro i
      unfold fracCoord pmod
      rw [div_one, one_mul]
      ring
    simp only [e]
    have h := congrFun (show (r ᵥ* L⁻¹ᵀ) ᵥ* Lᵀ = r by
      rw [vecMul_vecMul, transpose_nonsing_inv, Matrix.nonsing_inv_mul _ hu, vecMul_one]) k
    rw [← h]
    rfl

/-- C95, fractional, for a symmetric lattice matrix (orthorhombic, or the usual primitive cells of the fcc and bcc lattices): bin `idx` holds the number of
electrons whose fractional coordinates along the lattice vectors lie in the cell. -/
theorem c95_fractional_partial (axes : List (String × Option FAxis)) (hb : ∀ a ∈ fAxes axes, 0 < a.bins) (L : Matrix (Fin 3) (Fin 3) ℝ) (hL : L.det ≠ 0)
    (hsym : Lᵀ = L) (run : List (List (List (List (Vec 3))))) (idx : List ℕ) (hl : idx.length = (fAxes axes).length)
    (hi : ∀ p ∈ (fAxes axes).zip idx, p.2 < p.1.bins) :
    fractionalDensity axes L run idx = countRun run fun r => ∃ f, IsFractional L r f ∧ ∀ p ∈ (fAxes axes).zip idx, Cell 0 1 p.1.bins p.2 (f p.1.latticeIndex) := by
  unfold fractionalDensity fEdges
  have h := density_count (fAxes axes) FAxis.bins (fun _ => (0, 1)) (fun a r => fracCoord L⁻¹ r a.latticeIndex) hb (fun _ _ => by norm_num) run idx hl hi
  have e : (fun x => (fAxes axes).map fun a => fracCoord L⁻¹ x a.latticeIndex) = fExtract axes L⁻¹ := rfl
  rw [e] at h
  rw [h]
  congr 2
  funext r
  have hf := c95_transposed L hL r
  rw [hsym] at hf
  refine propext ⟨fun h => ⟨_, hf, h⟩, ?_⟩
  rintro ⟨f, h1, h2⟩
  rwa [frac_unique hL hf h1]

/-- C95, fractional, for every lattice: the cells are those of the transposed lattice matrix. -/
theorem c95_fractional_columns (axes : List (String × Option FAxis)) (hb : ∀ a ∈ fAxes axes, 0 < a.bins) (L : Matrix (Fin 3) (Fin 3) ℝ) (hL : L.det ≠ 0)
    (run : List (List (List (List (Vec 3))))) (idx : List ℕ) (hl : idx.length = (fAxes axes).length)
    (hi : ∀ p ∈ (fAxes axes).zip idx, p.2 < p.1.bins) :
    fractionalDensity axes L run idx = countRun run fun r => ∃ f, IsFractional Lᵀ r f ∧ ∀ p ∈ (fAxes axes).zip idx, Cell 0 1 p.1.bins p.2 (f p.1.latticeIndex) := by
  have hT : Lᵀ.det ≠ 0 := by rwa [det_transpose]
  unfold fractionalDensity fEdges
  have h := density_count (fAxes axes) FAxis.bins (fun _ => (0, 1)) (fun a r => fracCoord L⁻¹ r a.latticeIndex) hb (fun _ _ => by norm_num) run idx hl hi
  have e : (fun x => (fAxes axes).map fun a => fracCoord L⁻¹ x a.latticeIndex) = fExtract axes L⁻¹ := rfl
  rw [e] at h
  rw [h]
  congr 2
  funext r
  have hf := c95_transposed L hL r
  refine propext ⟨fun h => ⟨_, hf, h⟩, ?_⟩
  rintro ⟨f, h1, h2⟩
  rwa [frac_unique hT hf h1]

/-- C95: no electron is ever outside the range of a fractional histogram. -/
theorem c95_all_counted (L : Matrix (Fin 3) (Fin 3) ℝ) (r : Vec 3) (i : Fin 3) (bins : ℕ) (hb : 0 < bins) :
    ∃! k, Cell 0 1 bins k (fracCoord L⁻¹ r i) := by
  have h := (Jaqmc.Stats.Props.inBin_unique (edges bins (0, 1)) (edges_sorted hb (by norm_num)).1 (edges_sorted hb (by norm_num)).2 (fracCoord L⁻¹ r i)).1 ?_
  · obtain ⟨k, hk, hu⟩ := h
    exact ⟨k, (inBin_edges hb _ _).1 hk, fun j hj => hu j ((inBin_edges hb _ _).2 hj)⟩
  · have hb' : (bins : ℝ) ≠ 0 := by exact_mod_cast hb.ne'
    refine ⟨0, 1, ?_, ?_, ?_, ?_⟩
    · rw [List.head?_eq_getElem?, edges_get (by omega)]; simp
    · rw [List.getLast?_eq_getElem?, edges_length, Nat.add_sub_cancel, edges_get (by omega)]
      simp only [Option.some.injEq]
      field_simp
      ring
    · unfold fracCoord pmod
      rw [div_one, one_mul]
      linarith [Int.floor_le ((r ᵥ* L⁻¹ᵀ) i)]
    · unfold fracCoord pmod
      rw [div_one, one_mul]
      linarith [Int.lt_floor_add_one ((r ᵥ* L⁻¹ᵀ) i)]

theorem pmod_int (x : ℝ) (z : ℤ) : pmod (x + z) 1 = pmod x 1 := by
  unfold pmod
  simp only [div_one, one_mul, Int.floor_add_intCast]
  push_cast
  ring

/-- C95: for a symmetric lattice matrix, moving an electron by a lattice vector changes nothing. -/
theorem c95_periodic_partial (L : Matrix (Fin 3) (Fin 3) ℝ) (hL : L.det ≠ 0) (hsym : Lᵀ = L) (r : Vec 3) (z : Fin 3 → ℤ) :
    fracCoord L⁻¹ (fun k => r k + ∑ i, (z i : ℝ) * L i k) = fracCoord L⁻¹ r := by
  have hu : IsUnit L.det := isUnit_iff_ne_zero.2 hL
  funext i
  unfold fracCoord
  have e : ((fun k => r k + ∑ i, (z i : ℝ) * L i k) ᵥ* L⁻¹ᵀ) i = (r ᵥ* L⁻¹ᵀ) i + z i := by
    have h1 : (fun k => r k + ∑ i, (z i : ℝ) * L i k) = r + (fun i => (z i : ℝ)) ᵥ* L := rfl
    rw [h1, add_vecMul, vecMul_vecMul, transpose_nonsing_inv, hsym, Matrix.mul_nonsing_inv _ hu, vecMul_one]
    rfl
  rw [e, pmod_int]

/-- A hexagonal-like cell. -/
noncomputable def skew : Matrix (Fin 3) (Fin 3) ℝ := !![2, 0, 0; 1, 1, 0; 0, 0, 1]

/-- C95 fails for other lattices: in the cell `skew` an electron at the origin and one displaced by the second lattice vector are the same point of the
crystal, but are counted in different bins along the first axis. -/
theorem c95_not_periodic :
    (IsFractional skew 0 0 ∧ IsFractional skew (skew 1) 0) ∧
    fractionalDensity [("a", some ⟨0, 2⟩)] skew [[[[0]]]] [0] = 1 ∧
    fractionalDensity [("a", some ⟨0, 2⟩)] skew [[[[skew 1]]]] [0] = 0 ∧
    fractionalDensity [("a", some ⟨0, 2⟩)] skew [[[[skew 1]]]] [1] = 1 := by
  have hdet : skew.det = 2 := by
    simp [skew, Matrix.det_fin_three]
  have hd : skew.det ≠ 0 := by rw [hdet]; norm_num
  have hT : skewᵀ.det ≠ 0 := by rwa [det_transpose]
  have hax : fAxes [("a", some ⟨0, 2⟩)] = [⟨0, 2⟩] := by simp [fAxes]
  have key : ∀ (r f : Vec 3) (k : ℕ), IsFractional skewᵀ r f → k < 2 →
      fractionalDensity [("a", some ⟨0, 2⟩)] skew [[[[r]]]] [k] = if Cell 0 1 2 k (f 0) then 1 else 0 := by
    intro r f k hf hk
    rw [c95_fractional_columns _ (by rw [hax]; simp) skew hd _ _ (by rw [hax]; rfl) (by rw [hax]; simpa using hk)]
    unfold countRun
    rw [hax]
    by_cases hc : Cell 0 1 2 k (f 0)
    · rw [if_pos hc]
      have : ∃ f, IsFractional skewᵀ r f ∧ ∀ p ∈ [(⟨0, 2⟩ : FAxis)].zip [k], Cell 0 1 p.1.bins p.2 (f p.1.latticeIndex) := ⟨f, hf, by simpa using hc⟩
      simp only [List.flatten_cons, List.flatten_nil, List.append_nil, List.filter_cons, List.filter_nil, this, decide_true, if_true]
      norm_num
    · rw [if_neg hc]
      have : ¬ ∃ f, IsFractional skewᵀ r f ∧ ∀ p ∈ [(⟨0, 2⟩ : FAxis)].zip [k], Cell 0 1 p.1.bins p.2 (f p.1.latticeIndex) := by
        rintro ⟨g, hg, h⟩
        rw [frac_unique hT hg hf] at h
        exact hc (by simpa using h)
      simp only [List.flatten_cons, List.flatten_nil, List.append_nil, List.filter_cons, List.filter_nil, this, decide_false]
      norm_num
  have h0 : IsFractional skewᵀ 0 0 := ⟨fun i => by simp, 0, fun k => by simp⟩
  have h1 : IsFractional skewᵀ (skew 1) ![1 / 2, 1 / 2, 0] := by
    refine ⟨fun i => by fin_cases i <;> norm_num, ![0, 0, 0], fun k => ?_⟩
    fin_cases k <;> simp [skew, Fin.sum_univ_three, Matrix.transpose_apply] <;> norm_num
  refine ⟨⟨⟨fun i => by simp, 0, fun k => by simp⟩, fun i => by simp, ![0, 1, 0], fun k => ?_⟩, ?_, ?_, ?_⟩
  · simp [Fin.sum_univ_three]
  · rw [key 0 0 0 h0 (by norm_num), if_pos]
    simp [Cell]
  · rw [key _ _ 0 h1 (by norm_num), if_neg]
    simp [Cell]
  · rw [key _ _ 1 h1 (by norm_num), if_pos]
    unfold Cell
    norm_num

/-- C95: the axes of a fractional histogram are in the order of the lattice vectors, in whatever order they are configured. -/
theorem c95_axis_order (axes axes' : List (String × Option FAxis)) (h : axes.Perm axes')
    (hd : ((axes.filterMap Prod.snd).map FAxis.latticeIndex).Nodup) : fAxes axes = fAxes axes' ∧ (fAxes axes).Pairwise fun a b => a.latticeIndex < b.latticeIndex := by
  have hp : (axes.filterMap Prod.snd).Perm (axes'.filterMap Prod.snd) := h.filterMap _
  have le : ∀ l : List FAxis, (l.insertionSort fun a b => a.latticeIndex ≤ b.latticeIndex).Pairwise fun a b => a.latticeIndex ≤ b.latticeIndex := by
    intro l
    haveI : Std.Total (fun a b : FAxis => a.latticeIndex ≤ b.latticeIndex) := ⟨fun a b => le_total _ _⟩
    haveI : IsTrans FAxis (fun a b : FAxis => a.latticeIndex ≤ b.latticeIndex) := ⟨fun a b c h1 h2 => le_trans h1 h2⟩
    exact List.pairwise_insertionSort _ l
  have strict : (fAxes axes).Pairwise fun a b => a.latticeIndex < b.latticeIndex := by
    have hn : ((fAxes axes).map FAxis.latticeIndex).Nodup :=
      (((List.perm_insertionSort _ _).map FAxis.latticeIndex).nodup_iff).2 hd
    have hn' : (fAxes axes).Pairwise fun a b => a.latticeIndex ≠ b.latticeIndex := List.pairwise_map.1 hn
    exact ((le _).and hn').imp fun ⟨a, b⟩ => lt_of_le_of_ne a b
  refine ⟨?_, strict⟩
  have hperm : (fAxes axes).Perm (fAxes axes') := ((List.perm_insertionSort _ _).trans hp).trans (List.perm_insertionSort _ _).symm
  refine hperm.eq_of_pairwise ?_ (strict.imp fun h => h.le) (le _)
  intro a b ha hb h1 h2
  have hab : a.latticeIndex = b.latticeIndex := le_antisymm h1 h2
  have hb' : b ∈ fAxes axes := hperm.mem_iff.2 hb
  by_contra hne
  obtain ⟨i, hi, rfl⟩ := List.getElem_of_mem ha
  obtain ⟨j, hj, rfl⟩ := List.getElem_of_mem hb'
  rcases lt_trichotomy i j with hij | hij | hij
  · exact absurd hab (List.pairwise_iff_getElem.1 strict i j hi hj hij).ne
  · subst hij; exact hne rfl
  · exact absurd hab (List.pairwise_iff_getElem.1 strict j i hj hi hij).ne'

/-- C95, sphere: bin `idx` holds the number of electrons whose polar angle (and azimuth) lie in the cell. -/
theorem c95_spherical (bt bp : ℕ) (hbt : 0 < bt) (hbp : 0 < bp) (run : List (List (List (List (ℝ × ℝ))))) (i j : ℕ) (hi : i < bt) (hj : j < bp) :
    sphericalDensity bt none run [i] = countRun run (fun e => Cell 0 Real.pi bt i e.1) ∧
    sphericalDensity bt (some bp) run [i, j] = countRun run (fun e => Cell 0 Real.pi bt i e.1 ∧ Cell (-Real.pi) Real.pi bp j e.2) := by
  have hpi := Real.pi_pos
  constructor
  · have h := density_count (X := ℝ × ℝ) [()] (fun _ => bt) (fun _ => (0, Real.pi)) (fun _ e => e.1) (by simpa using hbt) (by simpa using hpi) run [i] rfl
      (by simpa using hi)
    have e : sExtract none = fun x : ℝ × ℝ => [()].map fun _ => x.1 := rfl
    unfold sphericalDensity
    simp only [sEdges]
    simp only [List.map_cons, List.map_nil] at h e
    rw [e, h]
    simp
  · have h := density_count (X := ℝ × ℝ) [true, false] (fun b => if b then bt else bp) (fun b => if b then (0, Real.pi) else (-Real.pi, Real.pi))
      (fun b e => if b then e.1 else e.2) (by simp [hbt, hbp]) (by simp [hpi]) run [i, j] rfl (by simp [hi, hj])
    have e : sExtract (some bp) = fun x : ℝ × ℝ => [x.1, x.2] := rfl
    unfold sphericalDensity
    simp only [sEdges]
    simp only [List.map_cons, List.map_nil, if_true, Bool.false_eq_true, if_false] at h
    rw [e, h]
    simp

/-- Two electrons of one walker in two dimensions, and a disabled axis. -/
example : (cAxes [("x", some ⟨![2, 0, 0], 4, (-1, 1)⟩), ("y", none), ("z", some ⟨![0, 0, 1], 2, (0, 3)⟩)]).length = 2 := rfl

/-- The primitive cell of the fcc lattice satisfies the hypotheses of the theorems for symmetric matrices. -/
example : ∃ L : Matrix (Fin 3) (Fin 3) ℝ, L.det ≠ 0 ∧ Lᵀ = L ∧ L 0 1 ≠ 0 := by
  refine ⟨!![0, 1, 1; 1, 0, 1; 1, 1, 0], ?_, ?_, by simp⟩
  · simp [Matrix.det_fin_three]
  · ext i j; fin_cases i <;> fin_cases j <;> rfl

end Jaqmc.Density.Props
