import Verif.Props.Ph
import Mathlib.Data.Nat.Lattice
/-! C93: the radial tables of the pseudo-Hamiltonian. -/
namespace Jaqmc.Ph.Props
open Spec
open scoped BigOperators

variable {n A : ℕ}

theorem gridPt_lt {m i j : ℕ} : gridPt m i < gridPt m j ↔ i < j := by
  unfold gridPt
  have h : (0 : ℝ) < m + 1 := by positivity
  rw [div_lt_div_iff_of_pos_right h]
  constructor
  · intro h'
    have : (i : ℝ) < j := by linarith
    exact_mod_cast this
  · intro h'
    have : (i : ℝ) < j := by exact_mod_cast h'
    linarith

theorem gridPt_le {m i j : ℕ} : gridPt m i ≤ gridPt m j ↔ i ≤ j := by
  rw [← not_lt, gridPt_lt, not_lt]

theorem gridPt_zero (m : ℕ) : gridPt m 0 = 0 := by simp [gridPt]

theorem gridPt_last (m : ℕ) : gridPt m (m + 1) = 10 := by
  unfold gridPt
  have h : ((m : ℝ) + 1) ≠ 0 := by positivity
  push_cast
  field_simp

/-- The number of grid points not above `r`, in a cell. -/
theorem count_cell {m i : ℕ} (hi : i ≤ m) {r : ℝ} (h1 : gridPt m i ≤ r) (h2 : r < gridPt m (i + 1)) :
    ((Finset.range (m + 2)).filter fun i => gridPt m i ≤ r).card = i + 1 := by
  have : (Finset.range (m + 2)).filter (fun j => gridPt m j ≤ r) = Finset.range (i + 1) := by
    ext j
    simp only [Finset.mem_filter, Finset.mem_range]
    constructor
    · rintro ⟨_, h⟩
      have := gridPt_lt.mp (lt_of_le_of_lt h h2)
      omega
    · intro h
      exact ⟨by omega, le_trans (gridPt_le.mpr (by omega)) h1⟩
  rw [this, Finset.card_range]

theorem interp_open (m : ℕ) (t : ℕ → ℝ) {i : ℕ} (hi : i ≤ m) {r : ℝ} (h1 : gridPt m i ≤ r) (h2 : r < gridPt m (i + 1)) :
    interp m t r = t i + (r - gridPt m i) / (gridPt m (i + 1) - gridPt m i) * (t (i + 1) - t i) := by
  unfold interp
  simp only
  rw [if_neg (not_lt.mpr (le_trans (gridPt_le.mpr (Nat.zero_le _)) h1)),
    if_neg (not_lt.mpr (le_trans h2.le (gridPt_le.mpr (by omega)))), count_cell hi h1 h2]
  have e : max 1 (min (i + 1) (m + 1)) = i + 1 := by omega
  rw [e, Nat.add_sub_cancel]

theorem interp_last (m : ℕ) (t : ℕ → ℝ) : interp m t (gridPt m (m + 1)) = t (m + 1) := by
  have hc : ((Finset.range (m + 2)).filter fun i => gridPt m i ≤ gridPt m (m + 1)).card = m + 2 := by
    rw [Finset.filter_true_of_mem, Finset.card_range]
    intro i hi
    exact gridPt_le.mpr (by have := Finset.mem_range.mp hi; omega)
  unfold interp
  simp only
  rw [if_neg (not_lt.mpr (gridPt_le.mpr (Nat.zero_le _))), if_neg (lt_irrefl _), hc]
  have e : max 1 (min (m + 2) (m + 1)) = m + 1 := by omega
  rw [e, Nat.add_sub_cancel]
  have : gridPt m (m + 1) - gridPt m m ≠ 0 := (sub_pos.mpr (gridPt_lt.mpr (by omega))).ne'
  rw [div_self this]
  ring

/-- C93 (interpolation): between two neighbouring grid points, which are `10/(m+1)` apart, the interpolated value is the straight
line through the two table entries; so it is the table at the grid points.  Beyond the last one (10 bohr) it is the last entry. -/
theorem c93_interp (m : ℕ) (t : ℕ → ℝ) :
    (∀ i ≤ m, ∀ s : ℝ, 0 ≤ s → s ≤ 1 → interp m t (10 * (i + s) / (m + 1)) = (1 - s) * t i + s * t (i + 1)) ∧
    (∀ r, 10 ≤ r → interp m t r = t (m + 1)) := by
  constructor
  · intro i hi s h0 h1
    have hm : (0 : ℝ) < m + 1 := by positivity
    rcases eq_or_lt_of_le h1 with rfl | h1
    · have e : 10 * ((i : ℝ) + 1) / (m + 1) = gridPt m (i + 1) := by unfold gridPt; push_cast; rfl
      rw [e]
      rcases Nat.lt_or_ge i m with hlt | hge
      · rw [interp_open m t (i := i + 1) hlt le_rfl (gridPt_lt.mpr (by omega))]
        simp
      · have : i = m := by omega
        subst this
        rw [interp_last]
        ring
    · have l1 : gridPt m i ≤ 10 * ((i : ℝ) + s) / (m + 1) := by
        unfold gridPt
        rw [div_le_div_iff_of_pos_right hm]
        linarith
      have l2 : 10 * ((i : ℝ) + s) / (m + 1) < gridPt m (i + 1) := by
        unfold gridPt
        rw [div_lt_div_iff_of_pos_right hm]
        push_cast
        linarith
      rw [interp_open m t hi l1 l2]
      have e : (10 * ((i : ℝ) + s) / (m + 1) - gridPt m i) / (gridPt m (i + 1) - gridPt m i) = s := by
        unfold gridPt
        push_cast
        field_simp
        ring
      rw [e]
      ring
  · intro r hr
    rcases eq_or_lt_of_le hr with rfl | h
    · rw [← gridPt_last m, interp_last]
    · unfold interp
      simp only
      rw [if_neg (by rw [gridPt_zero]; linarith), if_pos (by rw [gridPt_last]; exact h)]

/-- Interpolation is linear in the table and reproduces constants. -/
theorem interp_linear (m : ℕ) (t u : ℕ → ℝ) (a b c r : ℝ) :
    interp m (fun i => a * t i + b * u i + c) r = a * interp m t r + b * interp m u r + c := by
  unfold interp
  simp only
  split
  · rfl
  · split
    · rfl
    · ring

/-- Only the entries of the grid are read. -/
theorem interp_congr (m : ℕ) (t u : ℕ → ℝ) (h : ∀ i ≤ m + 1, t i = u i) (r : ℝ) : interp m t r = interp m u r := by
  unfold interp
  simp only
  rw [h 0 (by omega), h (m + 1) le_rfl, h _ (by omega : max 1 (min _ (m + 1)) ≤ m + 1), h _ (by omega : max 1 (min _ (m + 1)) - 1 ≤ m + 1)]

/-- C93 (reconstruction): from channels of the form `loc + l(l+1) L2`, `l = 0, …, M`, the loader recovers `loc` and `L2`. -/
theorem c93_reconstruct (lmax : ℕ) (loc l2 : ℝ) (ch : ℕ → ℝ) (h : ∀ l ≤ lmax, ch l = loc + ((l * (l + 1) : ℕ) : ℝ) * l2) (hz : lmax = 0 → l2 = 0) :
    reconstruct lmax ch = (loc, l2) := by
  unfold reconstruct
  split
  · rename_i h0
    rw [hz h0, h 0 (Nat.zero_le _)]
    simp
  · rename_i h0
    simp only
    have hl : ∀ l ∈ Finset.range lmax, (ch l - ch lmax) / (((l * (l + 1) : ℕ) : ℝ) - ((lmax * (lmax + 1) : ℕ) : ℝ)) = l2 := by
      intro l hl
      have hlt := Finset.mem_range.mp hl
      rw [h l hlt.le, h lmax le_rfl]
      have hne : (((l * (l + 1) : ℕ) : ℝ) - ((lmax * (lmax + 1) : ℕ) : ℝ)) ≠ 0 := by
        have : l * (l + 1) < lmax * (lmax + 1) := Nat.mul_lt_mul'' hlt (by omega)
        have : ((l * (l + 1) : ℕ) : ℝ) < ((lmax * (lmax + 1) : ℕ) : ℝ) := by exact_mod_cast this
        linarith
      field_simp
      ring
    have hn : (lmax : ℝ) ≠ 0 := by exact_mod_cast h0
    rw [Finset.sum_congr rfl hl, Finset.sum_const, Finset.card_range, nsmul_eq_mul, mul_div_cancel_left₀ _ hn, h lmax le_rfl]
    congr 1
    ring

/-- C93 (any channels): whatever the channels are, the result reproduces the local one; with two channels it reproduces both. -/
theorem c93_local (lmax : ℕ) (ch : ℕ → ℝ) :
    (reconstruct lmax ch).1 + ((lmax * (lmax + 1) : ℕ) : ℝ) * (reconstruct lmax ch).2 = ch lmax ∧
    (lmax = 1 → (reconstruct lmax ch).1 = ch 0 ∧ 2 * (reconstruct lmax ch).2 = ch 1 - ch 0) := by
  constructor
  · unfold reconstruct
    split
    · rename_i h; subst h; simp
    · simp
  · rintro rfl
    unfold reconstruct
    simp
    constructor <;> ring

/-- C93 (local part): `energy:ph` of an element's tables, together with the bare `-Z / r` of the potential energy, is the sum over electrons
and atoms of the interpolated local channel `r v_loc` divided by `r`. -/
theorem c93_zero_order (m : ℕ) (x : Conf n) (atoms : Fin A → Pt) (lmax : Fin A → ℕ) (ch : Fin A → ℕ → ℕ → ℝ) (Z : Fin A → ℝ)
    (hx : ∀ e a, x e ≠ atoms a) :
    (∑ e, ∑ a, -(Z a) / radius (x e) (atoms a)) + zeroOrder m x atoms (fun a => (loadTables (lmax a) (ch a) (Z a)).1) =
      ∑ e, ∑ a, interp m (fun i => (reconstruct (lmax a) fun l => ch a l i).1) (radius (x e) (atoms a)) / radius (x e) (atoms a) := by
  unfold zeroOrder
  rw [← Finset.sum_add_distrib]
  refine Finset.sum_congr rfl fun e _ => ?_
  rw [← Finset.sum_add_distrib]
  refine Finset.sum_congr rfl fun a _ => ?_
  have hl := interp_linear m (fun i => (reconstruct (lmax a) fun l => ch a l i).1) 0 1 0 (Z a) (radius (x e) (atoms a))
  have e1 : (fun i => 1 * (reconstruct (lmax a) fun l => ch a l i).1 + 0 * (0 : ℕ → ℝ) i + Z a) = (loadTables (lmax a) (ch a) (Z a)).1 := by
    funext i
    simp [loadTables]
  rw [e1] at hl
  rw [← radius_eq, hl]
  have := radius_pos (hx e a)
  field_simp
  ring

/-- C93 (all together): tables whose channels are `l = 0, …, M` of the form `loc + l(l+1) L2`.  On a wavefunction that is an eigenfunction of
the angular momentum of electron `e` about atom `a` with quantum number `l e a ≤ M_a`, the energies `energy:kinetic` and `energy:ph` together with
the bare attraction give `-½ Δψ` plus, for each pair, the tabulated potential of channel `l e a` — the semilocal
pseudopotential the tables come from. -/
theorem c93_channel (m : ℕ) (f ψ : Conf n → ℝ) (x : Conf n) (hf : ContDiffAt ℝ 2 f x) (h : LogOf f ψ x) (hc : ContinuousAt ψ x)
    (atoms : Fin A → Pt) (hx : ∀ e a, x e ≠ atoms a) (lmax : Fin A → ℕ) (ch : Fin A → ℕ → ℕ → ℝ) (Z : Fin A → ℝ)
    (loc l2 : Fin A → ℕ → ℝ) (hch : ∀ a, ∀ l ≤ lmax a, ∀ i ≤ m + 1, ch a l i = loc a i + ((l * (l + 1) : ℕ) : ℝ) * l2 a i)
    (hz : ∀ a, lmax a = 0 → ∀ i, l2 a i = 0)
    (l : Fin n → Fin A → ℕ) (hl : ∀ e a, l e a ≤ lmax a) (heig : ∀ e a, angularSq e (atoms a) ψ x = ((l e a * (l e a + 1) : ℕ) : ℝ) * ψ x)
    (E : ℝ) (hE : standard f x atoms (radialL2 m x atoms fun a => (loadTables (lmax a) (ch a) (Z a)).2) = some E) :
    (E + ((∑ e, ∑ a, -(Z a) / radius (x e) (atoms a)) + zeroOrder m x atoms (fun a => (loadTables (lmax a) (ch a) (Z a)).1))) * ψ x =
      -(1 / 2) * laplacian ψ x +
        (∑ e, ∑ a, interp m (ch a (l e a)) (radius (x e) (atoms a)) / radius (x e) (atoms a)) * ψ x := by
  have hk := c92_standard f ψ x hf h hc atoms hx _ E hE
  rw [add_mul, hk, c93_zero_order m x atoms lmax ch Z hx]
  unfold derivativePart
  rw [add_assoc]
  congr 1
  rw [Finset.sum_mul, Finset.sum_mul, ← Finset.sum_add_distrib]
  refine Finset.sum_congr rfl fun e _ => ?_
  rw [Finset.sum_mul, Finset.sum_mul, ← Finset.sum_add_distrib]
  refine Finset.sum_congr rfl fun a _ => ?_
  have hrec : ∀ i ≤ m + 1, reconstruct (lmax a) (fun l => ch a l i) = (loc a i, l2 a i) := fun i hi =>
    c93_reconstruct (lmax a) (loc a i) (l2 a i) _ (fun l hl => hch a l hl i hi) (fun h0 => hz a h0 i)
  have h1 : interp m (fun i => (reconstruct (lmax a) fun l => ch a l i).1) (radius (x e) (atoms a)) = interp m (loc a) (radius (x e) (atoms a)) :=
    interp_congr m _ _ (fun i hi => by rw [hrec i hi]) _
  have h2 : radialL2 m x atoms (fun a => (loadTables (lmax a) (ch a) (Z a)).2) e a = interp m (l2 a) (radius (x e) (atoms a)) :=
    interp_congr m _ _ (fun i hi => by simp only [loadTables, hrec i hi]) _
  have h3 : interp m (ch a (l e a)) (radius (x e) (atoms a)) =
      interp m (loc a) (radius (x e) (atoms a)) + ((l e a * (l e a + 1) : ℕ) : ℝ) * interp m (l2 a) (radius (x e) (atoms a)) := by
    have := interp_linear m (loc a) (l2 a) 1 ((l e a * (l e a + 1) : ℕ) : ℝ) 0 (radius (x e) (atoms a))
    rw [interp_congr m _ _ (fun i hi => hch a _ (hl e a) i hi)]
    simpa using this
  simp only [h1, h2, h3, heig, smul_eq_mul]
  ring

/-- C93 (which atoms): the estimator refuses an empty request, an element without tables, and a request none of whose elements is in the
system; otherwise it treats exactly the atoms of the requested elements, in order (requested elements that do not occur are ignored). -/
theorem c93_resolve (supported ph symbols : List String) :
    (resolve supported ph symbols = none ↔ ph = [] ∨ (∃ s ∈ ph, s ∉ supported) ∨ ∀ s ∈ symbols, s ∉ ph) ∧
    ∀ idx, resolve supported ph symbols = some idx →
      idx.Pairwise (· < ·) ∧ ∀ i, i ∈ idx ↔ ∃ s, symbols[i]? = some s ∧ s ∈ ph := by
  have hmem : ∀ i, i ∈ (symbols.zipIdx.filter fun p => decide (p.1 ∈ ph)).map (·.2) ↔ ∃ s, symbols[i]? = some s ∧ s ∈ ph := by
    intro i
    simp only [List.mem_map, List.mem_filter, Prod.exists, exists_eq_right, decide_eq_true_eq, List.mem_zipIdx_iff_getElem?]
  have hempty : (symbols.zipIdx.filter fun p => decide (p.1 ∈ ph)).map (·.2) = [] ↔ ∀ s ∈ symbols, s ∉ ph := by
    rw [List.eq_nil_iff_forall_not_mem]
    constructor
    · intro h s hs hp
      obtain ⟨i, hi⟩ := List.mem_iff_getElem?.mp hs
      exact h i ((hmem i).mpr ⟨s, hi, hp⟩)
    · intro h i hi
      obtain ⟨s, h1, h2⟩ := (hmem i).mp hi
      exact h s (List.mem_of_getElem? h1) h2
  unfold resolve
  constructor
  · split
    · simp [*]
    · split
      · simp [*]
      · simp only
        split
        · rename_i h
          exact ⟨fun _ => .inr (.inr (hempty.mp h)), fun _ => rfl⟩
        · rename_i h1 h2 h3
          rw [hempty] at h3
          constructor
          · intro h; cases h
          · rintro (h | h | h)
            · exact absurd h h1
            · exact absurd h h2
            · exact absurd h h3
  · intro idx h
    split at h
    · cases h
    · split at h
      · cases h
      · simp only at h
        split at h
        · cases h
        · obtain rfl := Option.some.inj h
          refine ⟨?_, hmem⟩
          rw [List.pairwise_map]
          refine List.Pairwise.filter _ ?_
          have : (symbols.zipIdx.map (·.2)).Pairwise (· < ·) := by
            rw [List.zipIdx_map_snd]
            exact List.pairwise_lt_range' ..
          exact List.pairwise_map.mp this

/-! ### Concrete cases -/

example : resolve ["Fe", "S"] ["Fe"] ["O", "Fe", "Fe"] = some [1, 2] ∧ resolve ["Fe", "S"] ["Fe", "C"] ["C", "Fe"] = none ∧
    resolve ["Fe", "S"] ["S"] ["Fe"] = none ∧ resolve ["Fe", "S"] ["S", "Fe"] ["Fe"] = some [0] := by decide

/-- Three channels `1, 3, 7` are `1 + l(l+1) · 1`; inconsistent ones are averaged, keeping the local channel `l = 2`. -/
example : reconstruct 2 (fun l => [1, 3, 7].getD l 0) = (1, 1) ∧
    (reconstruct 2 (fun l => [1, 4, 7].getD l 0)).1 + 6 * (reconstruct 2 (fun l => [1, 4, 7].getD l 0)).2 = 7 ∧
    (reconstruct 2 (fun l => [1, 4, 7].getD l 0)).2 = 7 / 8 := by
  refine ⟨c93_reconstruct 2 1 1 _ (fun l hl => ?_) (by decide), by simpa using (c93_local 2 (fun l => [1, 4, 7].getD l 0)).1, ?_⟩
  · interval_cases l <;> norm_num
  · unfold reconstruct; norm_num [Finset.sum_range_succ]

/-- A table of three points `0, 5, 10`. -/
example : interp 1 (fun i => [1, 3, 9].getD i 0) (15 / 2) = 6 := by
  have h := (c93_interp 1 (fun i => [1, 3, 9].getD i 0)).1 1 le_rfl (1 / 2) (by norm_num) (by norm_num)
  rw [show (10 * (((1 : ℕ) : ℝ) + 1 / 2) / (((1 : ℕ) : ℝ) + 1)) = 15 / 2 by norm_num] at h
  rw [h]
  norm_num

/-- The hypotheses of `c93_channel` are met by the p-wave about an atom at the origin, with channels `loc` and `loc + 2 L2`. -/
example (m : ℕ) (x : Conf 1) (h0 : x 0 0 ≠ 0) (loc l2 : ℕ → ℝ) (Z : ℝ) (hp : -(1 / 2) < interp m l2 (radius (x 0) 0) * radius (x 0) 0) :
    ∃ E, standard (fun y => Real.log |y 0 0|) x (fun _ : Fin 1 => 0)
        (radialL2 m x (fun _ : Fin 1 => 0) fun _ => (loadTables 1 (fun l i => loc i + ((l * (l + 1) : ℕ) : ℝ) * l2 i) Z).2) = some E ∧
      E + (-Z / radius (x 0) 0 + zeroOrder m x (fun _ : Fin 1 => 0) (fun _ => (loadTables 1 (fun l i => loc i + ((l * (l + 1) : ℕ) : ℝ) * l2 i) Z).1)) =
        interp m (fun i => loc i + 2 * l2 i) (radius (x 0) 0) / radius (x 0) 0 := by
  have hx : ∀ (e : Fin 1) (a : Fin 1), x e ≠ (fun _ : Fin 1 => (0 : Pt)) a := fun e a h => h0 (by
    rw [Fin.eq_zero e] at h; exact congrFun h 0)
  have hc : ContDiff ℝ 2 (fun y : Conf 1 => y 0 0) := coord.contDiff
  have hf : ContDiffAt ℝ 2 (fun y : Conf 1 => Real.log |y 0 0|) x := by
    simp only [Real.log_abs]
    exact hc.contDiffAt.log h0
  have hlog : LogOf (fun y : Conf 1 => Real.log |y 0 0|) (fun y => y 0 0) x := by
    filter_upwards [hc.continuous.continuousAt.eventually_ne h0] with y hy
    rw [Real.exp_log (abs_pos.mpr hy)]
  have hrec : ∀ i, reconstruct 1 (fun l => loc i + ((l * (l + 1) : ℕ) : ℝ) * l2 i) = (loc i, l2 i) := fun i =>
    c93_reconstruct 1 (loc i) (l2 i) _ (fun l _ => rfl) (fun h => by cases h)
  have hl2 : radialL2 m x (fun _ : Fin 1 => 0) (fun _ => (loadTables 1 (fun l i => loc i + ((l * (l + 1) : ℕ) : ℝ) * l2 i) Z).2) =
      fun _ _ => interp m l2 (radius (x 0) 0) := by
    funext e a
    rw [Fin.eq_zero e]
    exact interp_congr m _ _ (fun i _ => by simp only [loadTables, hrec]) _
  have hs := ((c92_nan (fun y : Conf 1 => Real.log |y 0 0|) x (fun _ : Fin 1 => 0) (fun _ _ => interp m l2 (radius (x 0) 0)) 0 0).1).mpr
    (fun e => by rw [Fin.eq_zero e]; exact (c92_single (x 0) (fun _ => 0) (fun _ => interp m l2 (radius (x 0) 0))).mpr hp)
  obtain ⟨E, hE⟩ := Option.isSome_iff_exists.mp hs
  rw [← hl2] at hE
  refine ⟨E, hE, ?_⟩
  have hco : (fun y : Conf 1 => y 0 0) = coord := rfl
  have hang : angularSq 0 (0 : Pt) (fun y : Conf 1 => y 0 0) x = 2 * x 0 0 := by
    rw [angularSq_eq _ _ hc.contDiffAt, hco]
    simp only [coord_dir, coord_dir2, Fin.sum_univ_three, rel]
    simp
  have hlapl : laplacian (fun y : Conf 1 => y 0 0) x = 0 := by
    rw [laplacian_eq hc.contDiffAt, hco]
    simp only [Finset.univ_unique, Fin.default_eq_zero, Finset.sum_singleton, coord_dir2, Finset.sum_const_zero]
  have h := c93_channel m _ _ x hf hlog hc.continuous.continuousAt (fun _ : Fin 1 => 0) hx (fun _ => 1)
    (fun _ l i => loc i + ((l * (l + 1) : ℕ) : ℝ) * l2 i) (fun _ => Z) (fun _ => loc) (fun _ => l2) (fun _ _ _ _ _ => rfl) (fun _ h => by cases h)
    (fun _ _ => 1) (fun _ _ => le_rfl) (fun e a => by rw [Fin.eq_zero e, hang]; norm_num) E hE
  rw [hlapl] at h
  simp only [Finset.univ_unique, Fin.default_eq_zero, Finset.sum_singleton] at h
  have h' := mul_right_cancel₀ h0 (h.trans (by rw [mul_zero, zero_add]))
  rw [h']
  norm_num

end Jaqmc.Ph.Props
