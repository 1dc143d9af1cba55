import Verif.Spec.Scf
import Verif.Props.Geometry
import Verif.Props.Wavefunction
import Mathlib.LinearAlgebra.Matrix.Determinant.Basic
import Mathlib.LinearAlgebra.Matrix.SchurComplement
/-! C99: the Hartree-Fock reference is a Slater determinant of Bloch orbitals. -/
namespace Jaqmc.Scf.Props
open Geometry Matrix Spec
open Geometry.Spec (translation Image InCell)
open Wf.Spec (SameSpin shiftOne shift valueC value)
open scoped Classical

variable {nk nao nu nd : ℕ}

/-! ### Bloch's theorem for the atomic orbitals -/

theorem dotK_add (k u v : Vec 3) : dotK k (fun c => u c + v c) = dotK k u + dotK k v := by
  simp only [dotK, mul_add, Finset.sum_add_distrib]

theorem dotK_sub (k u v : Vec 3) : dotK k (fun c => u c - v c) = dotK k u - dotK k v := by
  simp only [dotK, mul_sub, Finset.sum_sub_distrib]

theorem cis_add (x y : ℝ) : cis (x + y) = cis x * cis y := by
  simp only [cis]; push_cast; rw [mul_add, Complex.exp_add]

theorem norm_cis (x : ℝ) : ‖cis x‖ = 1 := by
  simp only [cis]; rw [mul_comm]; exact Complex.norm_exp_ofReal_mul_I x

theorem aos_bloch (S : Periodic nk nao) (hL : IsUnit S.latvec.det) (k : Fin nk) (a : Fin nao) :
    Bloch S.latvec (S.kpts k) (fun r => S.aos k r a) := by
  intro r m
  have hw := (Geometry.Props.c30_wrap S.latvec hL r).2.2.2 m
  simp only [Periodic.aos]
  rw [hw]
  have e : (fun c => r c + translation S.latvec m c - wrap S.latvec r c)
      = fun c => (r c - wrap S.latvec r c) + translation S.latvec m c := by funext c; ring
  rw [e, dotK_add (S.kpts k) (fun c => r c - wrap S.latvec r c) (translation S.latvec m), cis_add]
  simp only [cis, dotK]
  ring

theorem crystal_bloch (S : Periodic nk nao) (hL : IsUnit S.latvec.det) (p : Fin nk × (Fin nao → ℂ)) :
    Bloch S.latvec (S.kpts p.1) (crystal (fun k r => S.aos k r) p) := by
  intro r m
  simp only [crystal, Finset.mul_sum]
  refine Finset.sum_congr rfl fun a _ => ?_
  rw [show S.aos p.1 (fun c => r c + translation S.latvec m c) a = _ * S.aos p.1 r a from aos_bloch S hL p.1 a r m]
  ring

/-- **C99** (orbital values).  The values `eval_mos` gives for positions translated by lattice vectors of the primitive cell
are those at the original positions times `exp(i k·R)`, for every k-point, position and orbital, whatever the truncation
of the lattice sums; all rows have the same length, the largest number of occupied orbitals. -/
theorem c99_mos (S : Periodic nk nao) (hL : IsUnit S.latvec.det) {n : ℕ} (pos : Fin n → Vec 3) (m : Fin n → Fin 3 → ℤ)
    (k : Fin nk) (i : Fin n) :
    let moved := fun i c => pos i c + translation S.latvec (m i) c
    let phase := Complex.exp (Complex.I * ((∑ c, S.kpts k c * translation S.latvec (m i) c : ℝ) : ℂ))
    (S.evalMos moved).1 k i = ((S.evalMos pos).1 k i).map (phase * ·) ∧
    (S.evalMos moved).2 k i = ((S.evalMos pos).2 k i).map (phase * ·) := by
  intro moved phase
  have key : ∀ cs : List (Fin nao → ℂ), contract (S.aos k (moved i)) cs = (contract (S.aos k (pos i)) cs).map (phase * ·) := by
    intro cs
    simp only [contract, List.map_map]
    refine List.map_congr_left fun c _ => ?_
    simp only [Function.comp, Finset.mul_sum]
    refine Finset.sum_congr rfl fun a _ => ?_
    rw [show S.aos k (moved i) a = phase * S.aos k (pos i) a from aos_bloch S hL k a (pos i) (m i)]
    ring
  have pad : ∀ n row, padRow n (row.map (phase * ·)) = (padRow n row).map (phase * ·) := by
    intro n row
    simp [padRow]
  simp only [Periodic.evalMos]
  rw [key, key, pad, pad]
  exact ⟨rfl, rfl⟩

theorem le_maxCols {R : Type} (coeffs : Fin nk → List (Fin nao → R)) (k : Fin nk) : (coeffs k).length ≤ maxCols coeffs := by
  have : ∀ (l : List ℕ) x, x ∈ l → x ≤ l.foldr max 0 := by
    intro l
    induction l with
    | nil => simp
    | cons a t ih =>
      intro x hx
      rcases List.mem_cons.1 hx with rfl | h
      · simp
      · exact le_max_of_le_right (ih x h)
  exact this _ _ (by rw [List.mem_ofFn]; exact ⟨k, rfl⟩)

theorem pick_eq (t : ℝ) (occ : List ℝ) (coeff : List (Fin nao → ℂ)) : occupiedList.pick t occ coeff = occupied t occ coeff := by
  induction occ generalizing coeff with
  | nil => simp [occupiedList.pick, occupied]
  | cons o os ih =>
    cases coeff with
    | nil => simp [occupiedList.pick, occupied]
    | cons c cs =>
      have := ih cs
      simp only [occupied] at this
      by_cases h : t < o <;> simp [occupiedList.pick, occupied, h, this]

theorem occupiedList_eq (mf : MeanField nk nao) :
    occupiedList mf = (orbitalList (extract mf).1, orbitalList (extract mf).2) := by
  cases mf <;> simp [occupiedList, extract, pick_eq]

theorem orbitalRow_eq (S : Periodic nk nao) (coeffs : Fin nk → List (Fin nao → ℂ)) (r : Vec 3) :
    orbitalRow (fun k => S.aos k r) coeffs = (orbitalList coeffs).map fun p => crystal (fun k r => S.aos k r) p r := by
  simp only [orbitalRow, orbitalList, List.ofFn_eq_map, List.map_flatMap, contract, crystal]
  rw [← List.flatMap_def]
  refine List.flatMap_congr fun k _ => ?_
  rw [List.map_map]
  refine List.map_congr_left fun c _ => ?_
  simp only [Function.comp, mul_comm]

/-- **C99** (`eval_mos` and `eval_orbitals` hold the same numbers): the entry of orbital `n` of k-point `k` at position `i` is
the value of that occupied crystal orbital there; the entries past the last occupied orbital are 0. -/
theorem c99_mos_value (S : Periodic nk nao) {n : ℕ} (pos : Fin n → Vec 3) (k : Fin nk) (i : Fin n) :
    ((S.evalMos pos).1 k i).length = maxCols (extract S.mf).1 ∧ ((S.evalMos pos).2 k i).length = maxCols (extract S.mf).2 ∧
    (∀ j, ((S.evalMos pos).1 k i).getD j 0 =
      if h : j < ((extract S.mf).1 k).length then crystal (fun k r => S.aos k r) (k, ((extract S.mf).1 k)[j]) (pos i) else 0) ∧
    (∀ j, ((S.evalMos pos).2 k i).getD j 0 =
      if h : j < ((extract S.mf).2 k).length then crystal (fun k r => S.aos k r) (k, ((extract S.mf).2 k)[j]) (pos i) else 0) := by
  have key : ∀ cs : List (Fin nao → ℂ), ∀ N, cs.length ≤ N →
      (padRow N (contract (S.aos k (pos i)) cs)).length = N ∧ ∀ j, (padRow N (contract (S.aos k (pos i)) cs)).getD j 0 =
        if h : j < cs.length then crystal (fun k r => S.aos k r) (k, cs[j]) (pos i) else 0 := by
    intro cs N hN
    have hl : (contract (S.aos k (pos i)) cs).length = cs.length := by simp [contract]
    refine ⟨by simp [padRow, hl]; omega, fun j => ?_⟩
    split
    · rename_i h
      have h' : j < (padRow N (contract (S.aos k (pos i)) cs)).length := by simp [padRow, hl]; omega
      rw [List.getD_eq_getElem?_getD, List.getElem?_eq_getElem h', Option.getD_some]
      simp only [padRow]
      rw [List.getElem_append_left (by rw [hl]; exact h)]
      simp only [contract, List.getElem_map, crystal, mul_comm]
    · rename_i h
      by_cases h' : j < (padRow N (contract (S.aos k (pos i)) cs)).length
      · rw [List.getD_eq_getElem?_getD, List.getElem?_eq_getElem h', Option.getD_some]
        simp only [padRow]
        rw [List.getElem_append_right (by rw [hl]; omega)]
        simp
      · rw [List.getD_eq_getElem?_getD, List.getElem?_eq_none (by omega), Option.getD_none]
  obtain ⟨a1, a2⟩ := key _ _ (le_maxCols (extract S.mf).1 k)
  obtain ⟨b1, b2⟩ := key _ _ (le_maxCols (extract S.mf).2 k)
  exact ⟨a1, b1, a2, b2⟩

/-! ### The k-points of the orbitals -/

theorem flatten_replicate (S : Periodic nk nao) (coeffs : Fin nk → List (Fin nao → ℂ)) :
    (List.ofFn fun k => List.replicate (coeffs k).length (S.kpts k)).flatten = (orbitalList coeffs).map fun p => S.kpts p.1 := by
  simp only [orbitalList, List.ofFn_eq_map, List.map_flatMap]
  rw [← List.flatMap_def]
  refine List.flatMap_congr fun k _ => ?_
  simp [Function.comp_def]

/-- **C99** (k-points).  `get_orbital_kpoints` lists the k-point of every occupied spin-up orbital and then of every occupied
spin-down orbital, in the order of the columns of `eval_orbitals`. -/
theorem c99_kpoints (S : Periodic nk nao) :
    S.orbitalKpoints = ((occupiedList S.mf).1 ++ (occupiedList S.mf).2).map fun p => S.kpts p.1 := by
  rw [occupiedList_eq, List.map_append, ← flatten_replicate, ← flatten_replicate]
  simp only [Periodic.orbitalKpoints, Periodic.occupancies, List.map_ofFn, Function.comp_def]

/-! ### Determinants -/

theorem slogdetC_cast {a b : ℕ} (h : a = b) (M : Matrix (Fin a) (Fin a) ℂ) (N : Matrix (Fin b) (Fin b) ℂ)
    (e : ∀ i j : Fin a, M i j = N (Fin.cast h i) (Fin.cast h j)) : Wf.slogdetC M = Wf.slogdetC N := by
  subst h
  congr 1
  funext i j
  exact e i j

theorem slogdet_cast {a b : ℕ} (h : a = b) (M : Matrix (Fin a) (Fin a) ℝ) (N : Matrix (Fin b) (Fin b) ℝ)
    (e : ∀ i j : Fin a, M i j = N (Fin.cast h i) (Fin.cast h j)) : Wf.slogdet M = Wf.slogdet N := by
  subst h
  congr 1
  funext i j
  exact e i j

theorem lastDim_ofFn {R : Type} {n : ℕ} (f : Fin n → Fin n → R) : lastDim (List.ofFn fun i => List.ofFn (f i)) = n := by
  cases n with
  | zero => simp [lastDim]
  | succ n => simp [lastDim, List.ofFn_succ]

theorem square_ofFn {R : Type} [Zero R] {n : ℕ} (f : Fin n → Fin n → R) :
    square (List.ofFn fun i => List.ofFn (f i)) = some (Matrix.of fun i j =>
      (List.ofFn fun i => List.ofFn (f i))[i].getD j 0) := by
  unfold square
  rw [if_pos]
  simp [List.all_eq_true, List.mem_ofFn]

theorem blockC_ofFn {n : ℕ} (f : Fin n → Fin n → ℂ) :
    slogdetBlockC (List.ofFn fun i => List.ofFn (f i)) = some (Wf.slogdetC (Matrix.of f)) := by
  unfold slogdetBlockC
  rw [lastDim_ofFn, square_ofFn]
  split
  · rename_i h
    subst h
    simp [Wf.slogdetC]
  · rw [Option.map_some]
    congr 1
    refine slogdetC_cast (by simp) _ _ fun i j => ?_
    have hj : j.val < n := by have := j.2; simpa using this
    simp [hj]
    rfl

theorem block_ofFn {n : ℕ} (f : Fin n → Fin n → ℝ) :
    slogdetBlock (List.ofFn fun i => List.ofFn (f i)) = some (Wf.slogdet (Matrix.of f)) := by
  unfold slogdetBlock
  rw [lastDim_ofFn, square_ofFn]
  split
  · rename_i h
    subst h
    simp [Wf.slogdet]
  · rw [Option.map_some]
    congr 1
    refine slogdet_cast (by simp) _ _ fun i j => ?_
    have hj : j.val < n := by have := j.2; simpa using this
    simp [hj]
    rfl

/-- The determinant matrix is block diagonal. -/
theorem det_slater {K : Type} [CommRing K] (φ : Fin nu → Vec 3 → K) (ψ : Fin nd → Vec 3 → K) (r : Fin (nu + nd) → Vec 3) :
    (slaterMatrix φ ψ r).det
      = (Matrix.of fun i j : Fin nu => φ j (r (Fin.castAdd nd i))).det * (Matrix.of fun i j : Fin nd => ψ j (r (Fin.natAdd nu i))).det := by
  have h : slaterMatrix φ ψ r = Matrix.reindex finSumFinEquiv finSumFinEquiv (Matrix.fromBlocks
      (Matrix.of fun i j : Fin nu => φ j (r (Fin.castAdd nd i))) 0 0 (Matrix.of fun i j : Fin nd => ψ j (r (Fin.natAdd nu i)))) := by
    funext i j
    refine Fin.addCases (fun i => ?_) (fun i => ?_) i <;> refine Fin.addCases (fun j => ?_) (fun j => ?_) j <;>
      simp [slaterMatrix]
  rw [h, Matrix.det_reindex_self, Matrix.det_fromBlocks_zero₂₁]

theorem value_slaterC (A B : ℂ × WithBot ℝ) (x y : ℂ)
    (hA : A = (if x = 0 then 0 else x / (‖x‖ : ℂ), if x = 0 then ⊥ else ((Real.log ‖x‖ : ℝ) : WithBot ℝ)))
    (hB : B = (if y = 0 then 0 else y / (‖y‖ : ℂ), if y = 0 then ⊥ else ((Real.log ‖y‖ : ℝ) : WithBot ℝ))) :
    logOf (A.1 * B.1, A.2 + B.2) = if x * y = 0 then ⊥ else ((Real.log ‖x * y‖ + Complex.log (x * y / (‖x * y‖ : ℂ)) : ℂ) : WithBot ℂ) := by
  subst hA hB
  by_cases hx : x = 0
  · simp [hx, logOf]
  by_cases hy : y = 0
  · simp [hy, logOf]
  have nx : (‖x‖ : ℂ) ≠ 0 := by simpa using hx
  have ny : (‖y‖ : ℂ) ≠ 0 := by simpa using hy
  simp only [hx, hy, if_false, mul_eq_zero, or_self]
  rw [show ((Real.log ‖x‖ : ℝ) : WithBot ℝ) + ((Real.log ‖y‖ : ℝ) : WithBot ℝ) = ((Real.log ‖x‖ + Real.log ‖y‖ : ℝ) : WithBot ℝ) from rfl]
  simp only [logOf]
  rw [if_neg (by simp [hx, hy, div_eq_zero_iff]), norm_mul, Real.log_mul (by simpa using hx) (by simpa using hy)]
  congr 1
  congr 2
  push_cast
  field_simp

/-- The rows the code builds. -/
theorem rows_eq {R : Type} (row : Vec 3 → List R) (n off : ℕ) (hn : ∀ r, n ≤ (row r).length) (pos : ℕ → Vec 3) (s : List ℕ)
    (hs : s = List.range' off n) :
    (s.map fun e => (row (pos e)).take n) = List.ofFn fun i : Fin n => List.ofFn fun j : Fin n =>
      (row (pos (off + i)))[j.val]'(lt_of_lt_of_le j.2 (hn _)) := by
  subst hs
  refine List.ext_getElem (by simp) fun i h1 h2 => ?_
  simp only [List.getElem_map, List.getElem_range', List.getElem_ofFn]
  refine List.ext_getElem (by simpa using hn _) fun j h3 h4 => ?_
  simp [List.getElem_take]

theorem flat_eq (n : ℕ) (pos : ℕ → ℕ → Vec 3) (b e : ℕ) (he : e < n) : pos ((b * n + e) / n) ((b * n + e) % n) = pos b e := by
  have hn : 0 < n := by omega
  rw [mul_comm, Nat.mul_add_div hn, Nat.mul_add_mod, Nat.div_eq_of_lt he, Nat.mod_eq_of_lt he, add_zero]

/-- **C99** (batches).  The orbital matrices of a walker in a batch are those of the walker alone. -/
theorem c99_batch (S : Periodic nk nao) (M : Molecular nao) (nspins : ℕ × ℕ) (pos pos' : ℕ → ℕ → Vec 3) (b b' : ℕ)
    (h : ∀ e, e < nspins.1 + nspins.2 → pos b e = pos' b' e) :
    S.evalOrbitals nspins pos b = S.evalOrbitals nspins pos' b' ∧ M.evalOrbitals nspins pos b = M.evalOrbitals nspins pos' b' := by
  have key : ∀ e, e < nspins.1 + nspins.2 →
      pos ((b * (nspins.1 + nspins.2) + e) / (nspins.1 + nspins.2)) ((b * (nspins.1 + nspins.2) + e) % (nspins.1 + nspins.2))
        = pos' ((b' * (nspins.1 + nspins.2) + e) / (nspins.1 + nspins.2)) ((b' * (nspins.1 + nspins.2) + e) % (nspins.1 + nspins.2)) := by
    intro e he
    rw [flat_eq _ pos b e he, flat_eq _ pos' b' e he, h e he]
  constructor
  · simp only [Periodic.evalOrbitals]
    refine Prod.ext (List.map_congr_left fun e he => ?_) (List.map_congr_left fun e he => ?_)
    · rw [key e (by have := List.mem_range.1 he; omega)]
    · rw [key e (by have := List.mem_range'_1.1 he; omega)]
  · simp only [Molecular.evalOrbitals]
    refine Prod.ext (List.map_congr_left fun e he => ?_) (List.map_congr_left fun e he => ?_)
    · rw [key e (by have := List.mem_range.1 he; omega)]
    · rw [key e (by have := List.mem_range'_1.1 he; omega)]

theorem walker_up (r : Fin (nu + nd) → Vec 3) (i : Fin nu) : walker r (0 + i) = r (Fin.castAdd nd i) := by
  have : (i : ℕ) < nu + nd := by omega
  simp only [walker, zero_add, this, dite_true]; rfl

theorem walker_down (r : Fin (nu + nd) → Vec 3) (i : Fin nd) : walker r (nu + i) = r (Fin.natAdd nu i) := by
  simp only [walker, Nat.add_lt_add_left i.2 nu, dite_true]; rfl

/-- The spin-up and spin-down orbitals in use. -/
noncomputable def orbUp (S : Periodic nk nao) (hu : nu ≤ (occupiedList S.mf).1.length) (j : Fin nu) : Vec 3 → ℂ :=
  crystal (fun k r => S.aos k r) ((occupiedList S.mf).1[j.val]'(lt_of_lt_of_le j.2 hu))

/-- The spin-down orbitals in use. -/
noncomputable def orbDown (S : Periodic nk nao) (hd : nd ≤ (occupiedList S.mf).2.length) (j : Fin nd) : Vec 3 → ℂ :=
  crystal (fun k r => S.aos k r) ((occupiedList S.mf).2[j.val]'(lt_of_lt_of_le j.2 hd))

theorem matrices (S : Periodic nk nao) (hu : nu ≤ (occupiedList S.mf).1.length) (hd : nd ≤ (occupiedList S.mf).2.length)
    (pos : ℕ → ℕ → Vec 3) (b : ℕ) (r : Fin (nu + nd) → Vec 3) (hr : ∀ e : Fin (nu + nd), pos b e = r e) :
    S.evalOrbitals (nu, nd) pos b =
      (List.ofFn fun i : Fin nu => List.ofFn fun j : Fin nu => orbUp S hu j (r (Fin.castAdd nd i)),
       List.ofFn fun i : Fin nd => List.ofFn fun j : Fin nd => orbDown S hd j (r (Fin.natAdd nu i))) := by
  have hw : S.evalOrbitals (nu, nd) pos b = S.evalOrbitals (nu, nd) (fun _ => walker r) 0 := by
    refine (c99_batch S ⟨fun _ _ => 0, true, [], []⟩ (nu, nd) pos _ b 0 fun e he => ?_).1
    simp only [walker, show e < nu + nd from he, dite_true]
    exact hr ⟨e, he⟩
  rw [hw]
  have hu' : ∀ r, nu ≤ (orbitalRow (fun k => S.aos k r) (extract S.mf).1).length := by
    intro r
    rw [orbitalRow_eq]
    have := hu
    rw [occupiedList_eq] at this
    simpa using this
  have hd' : ∀ r, nd ≤ (orbitalRow (fun k => S.aos k r) (extract S.mf).2).length := by
    intro r
    rw [orbitalRow_eq]
    have := hd
    rw [occupiedList_eq] at this
    simpa using this
  have hm : ∀ e, e < nu + nd → walker r ((0 * (nu + nd) + e) % (nu + nd)) = walker r e := fun e he => by
    rw [zero_mul, zero_add, Nat.mod_eq_of_lt he]
  simp only [Periodic.evalOrbitals]
  refine Prod.ext ?_ ?_
  · dsimp only
    rw [List.map_congr_left (g := fun e => (orbitalRow (fun k => S.aos k (walker r e)) (extract S.mf).1).take nu)
      fun e he => by rw [hm e (by have := List.mem_range.1 he; omega)]]
    rw [rows_eq (fun r => orbitalRow (fun k => S.aos k r) (extract S.mf).1) nu 0 hu' (walker r) _ List.range_eq_range']
    congr 1
    funext i
    congr 1
    funext j
    rw [walker_up]
    simp only [orbUp, orbitalRow_eq, List.getElem_map, occupiedList_eq]
  · dsimp only
    rw [List.map_congr_left (g := fun e => (orbitalRow (fun k => S.aos k (walker r e)) (extract S.mf).2).take nd)
      fun e he => by rw [hm e (by have := List.mem_range'_1.1 he; omega)]]
    rw [rows_eq (fun r => orbitalRow (fun k => S.aos k r) (extract S.mf).2) nd nu hd' (walker r) _ rfl]
    congr 1
    funext i
    congr 1
    funext j
    rw [walker_down]
    simp only [orbDown, orbitalRow_eq, List.getElem_map, occupiedList_eq]

/-- The logarithm the code reports for a determinant `D`. -/
noncomputable def logValue (D : ℂ) : WithBot ℂ :=
  if D = 0 then ⊥ else ((Real.log ‖D‖ + Complex.log (D / (‖D‖ : ℂ)) : ℂ) : WithBot ℂ)

theorem slater_log (S : Periodic nk nao) (hu : nu ≤ (occupiedList S.mf).1.length) (hd : nd ≤ (occupiedList S.mf).2.length)
    (pos : ℕ → ℕ → Vec 3) (b : ℕ) (r : Fin (nu + nd) → Vec 3) (hr : ∀ e : Fin (nu + nd), pos b e = r e) :
    S.evalSlater (nu, nd) pos b = some (logValue (slaterMatrix (orbUp S hu) (orbDown S hd) r).det) := by
  unfold Periodic.evalSlater slaterC
  rw [matrices S hu hd pos b r hr]
  simp only [blockC_ofFn, Option.bind_some, Option.map_some]
  rw [det_slater]
  congr 1
  exact value_slaterC _ _ _ _ rfl rfl

theorem value_logValue (D : ℂ) : valueC (some (logValue D)) = some D := by
  unfold logValue
  by_cases h : D = 0
  · simp [h, valueC]
  · simp only [h, if_false, valueC]
    have hn : (‖D‖ : ℂ) ≠ 0 := by simpa using h
    rw [Complex.exp_add, Complex.exp_log (div_ne_zero h hn), ← Complex.ofReal_exp, Real.exp_log (norm_pos_iff.2 h)]
    congr 1
    field_simp

/-! ### The determinant -/

/-- **C99** (value).  The number reported by `PeriodicSCF.eval_slater` for a walker is the logarithm of the Slater determinant
of the first `nu` occupied spin-up and the first `nd` occupied spin-down crystal orbitals at its electrons (an empty spin
channel contributes the factor 1); its real part is the logarithm of the absolute value. -/
theorem c99_value (S : Periodic nk nao) (hu : nu ≤ (occupiedList S.mf).1.length) (hd : nd ≤ (occupiedList S.mf).2.length)
    (pos : ℕ → ℕ → Vec 3) (b : ℕ) (r : Fin (nu + nd) → Vec 3) (hr : ∀ e : Fin (nu + nd), pos b e = r e) :
    valueC (S.evalSlater (nu, nd) pos b) = some (slaterMatrix (orbUp S hu) (orbDown S hd) r).det ∧
    (S.evalSlater (nu, nd) pos b).map (WithBot.map Complex.re) =
      some (if (slaterMatrix (orbUp S hu) (orbDown S hd) r).det = 0 then ⊥
        else ((Real.log ‖(slaterMatrix (orbUp S hu) (orbDown S hd) r).det‖ : ℝ) : WithBot ℝ)) := by
  rw [slater_log S hu hd pos b r hr]
  refine ⟨value_logValue _, ?_⟩
  rw [Option.map_some]
  congr 1
  unfold logValue
  split
  · rfl
  · rename_i h
    rw [WithBot.map_coe]
    congr 1
    rw [Complex.add_re, Complex.ofReal_re, Complex.log_re, norm_div, Complex.norm_real, norm_norm,
      div_self (by simpa using h), Real.log_one, add_zero]

/-- **C99** (orbitals).  Orbital `j` of `eval_orbitals` is a Bloch function of the primitive cell with the wave vector
`get_orbital_kpoints()[j]` (spin down: after all the spin-up orbitals). -/
theorem c99_bloch (S : Periodic nk nao) (hL : IsUnit S.latvec.det) (hu : nu ≤ (occupiedList S.mf).1.length)
    (hd : nd ≤ (occupiedList S.mf).2.length) :
    (∀ j : Fin nu, ∃ k, S.orbitalKpoints[j.val]? = some k ∧ Bloch S.latvec k (orbUp S hu j)) ∧
    (∀ j : Fin nd, ∃ k, S.orbitalKpoints[(occupiedList S.mf).1.length + j.val]? = some k ∧ Bloch S.latvec k (orbDown S hd j)) := by
  constructor <;> intro j
  · have h := lt_of_lt_of_le j.2 hu
    refine ⟨S.kpts ((occupiedList S.mf).1[j.val]).1, ?_, crystal_bloch S hL _⟩
    rw [c99_kpoints, List.getElem?_map, List.getElem?_append_left h, List.getElem?_eq_getElem h, Option.map_some]
  · have h := lt_of_lt_of_le j.2 hd
    refine ⟨S.kpts ((occupiedList S.mf).2[j.val]).1, ?_, crystal_bloch S hL _⟩
    rw [c99_kpoints, List.getElem?_map, List.getElem?_append_right (by omega), Nat.add_sub_cancel_left,
      List.getElem?_eq_getElem h, Option.map_some]

theorem det_perm {K : Type} [CommRing K] (φ : Fin nu → Vec 3 → K) (ψ : Fin nd → Vec 3 → K) (r : Fin (nu + nd) → Vec 3)
    (σ : Equiv.Perm (Fin (nu + nd))) (hσ : SameSpin nu σ) :
    (slaterMatrix φ ψ (fun i => r (σ i))).det = (Equiv.Perm.sign σ : ℤ) * (slaterMatrix φ ψ r).det := by
  rw [← Matrix.det_permute]
  congr 1
  funext i j
  simp only [slaterMatrix, Matrix.submatrix_apply, Matrix.of_apply, id, hσ i]

/-- **C99** (antisymmetry).  Exchanging electrons of the same spin multiplies the value of the reference determinant by the
sign of the permutation and leaves its logarithmic amplitude alone. -/
theorem c99_antisymmetric (S : Periodic nk nao) (hu : nu ≤ (occupiedList S.mf).1.length)
    (hd : nd ≤ (occupiedList S.mf).2.length) (r : Fin (nu + nd) → Vec 3) (σ : Equiv.Perm (Fin (nu + nd))) (hσ : SameSpin nu σ) :
    valueC (S.evalSlater (nu, nd) (fun _ => walker fun i => r (σ i)) 0) =
      (valueC (S.evalSlater (nu, nd) (fun _ => walker r) 0)).map (fun z => ((Equiv.Perm.sign σ : ℤ) : ℂ) * z) ∧
    (S.evalSlater (nu, nd) (fun _ => walker fun i => r (σ i)) 0).map (WithBot.map Complex.re) =
      (S.evalSlater (nu, nd) (fun _ => walker r) 0).map (WithBot.map Complex.re) := by
  have hw : ∀ (r : Fin (nu + nd) → Vec 3) (e : Fin (nu + nd)), walker r e = r e := fun r e => by simp [walker]
  obtain ⟨a1, a2⟩ := c99_value S hu hd (fun _ => walker r) 0 r (hw r)
  obtain ⟨b1, b2⟩ := c99_value S hu hd (fun _ => walker fun i => r (σ i)) 0 _ (hw _)
  rw [a1, a2, b1, b2, det_perm _ _ r σ hσ]
  refine ⟨rfl, ?_⟩
  have hs : (((Equiv.Perm.sign σ : ℤ) : ℂ)) ≠ 0 ∧ ‖((Equiv.Perm.sign σ : ℤ) : ℂ)‖ = 1 := by
    rcases Int.units_eq_one_or (Equiv.Perm.sign σ) with h | h <;> simp [h]
  simp only [mul_eq_zero, hs.1, false_or, norm_mul, hs.2, one_mul]

theorem re_log_mul (D ε : ℂ) (hε : ‖ε‖ = 1) :
    (if ε * D = 0 then ⊥ else ((Real.log ‖ε * D‖ : ℝ) : WithBot ℝ)) = if D = 0 then ⊥ else ((Real.log ‖D‖ : ℝ) : WithBot ℝ) := by
  have h0 : ε ≠ 0 := by intro h; rw [h] at hε; simp at hε
  simp only [mul_eq_zero, h0, false_or, norm_mul, hε, one_mul]

theorem det_row (φ : Fin nu → Vec 3 → ℂ) (ψ : Fin nd → Vec 3 → ℂ) (r : Fin (nu + nd) → Vec 3) (i : Fin (nu + nd)) (t : Vec 3)
    (ε : ℂ) (h1 : ∀ j r, φ j (fun c => r c + t c) = ε * φ j r) (h2 : ∀ j r, ψ j (fun c => r c + t c) = ε * ψ j r) :
    (slaterMatrix φ ψ (shiftOne i t r)).det = ε * (slaterMatrix φ ψ r).det := by
  have : slaterMatrix φ ψ (shiftOne i t r) = (slaterMatrix φ ψ r).updateRow i (ε • slaterMatrix φ ψ r i) := by
    funext a b
    rw [Matrix.updateRow_apply]
    by_cases ha : a = i
    · subst ha
      have e : shiftOne a t r a = fun c => r a c + t c := by funext c; simp [shiftOne]
      rw [if_pos rfl]
      simp only [slaterMatrix, Matrix.of_apply, Pi.smul_apply, smul_eq_mul, e]
      split <;> split <;> simp [h1, h2]
    · have e : shiftOne i t r a = r a := by funext c; simp [shiftOne, ha]
      rw [if_neg ha]
      simp only [slaterMatrix, Matrix.of_apply, e]
  rw [this, Matrix.det_updateRow_smul, Matrix.updateRow_eq_self]

theorem det_cols (φ : Fin nu → Vec 3 → ℂ) (ψ : Fin nd → Vec 3 → ℂ) (r : Fin (nu + nd) → Vec 3) (t : Vec 3)
    (ε : Fin nu → ℂ) (δ : Fin nd → ℂ) (h1 : ∀ j r, φ j (fun c => r c + t c) = ε j * φ j r)
    (h2 : ∀ j r, ψ j (fun c => r c + t c) = δ j * ψ j r) :
    (slaterMatrix φ ψ (shift t r)).det = ((∏ j, ε j) * ∏ j, δ j) * (slaterMatrix φ ψ r).det := by
  rw [det_slater, det_slater]
  have e1 : (Matrix.of fun i j : Fin nu => φ j (shift t r (Fin.castAdd nd i)))
      = Matrix.of fun i j => ε j * (Matrix.of fun i j : Fin nu => φ j (r (Fin.castAdd nd i))) i j := by
    funext i j; simp only [Matrix.of_apply, shift]; exact h1 j _
  have e2 : (Matrix.of fun i j : Fin nd => ψ j (shift t r (Fin.natAdd nu i)))
      = Matrix.of fun i j => δ j * (Matrix.of fun i j : Fin nd => ψ j (r (Fin.natAdd nu i))) i j := by
    funext i j; simp only [Matrix.of_apply, shift]; exact h2 j _
  rw [e1, e2, Matrix.det_mul_row, Matrix.det_mul_row]
  ring

theorem exp_int (θ x : ℝ) (z : ℤ) (h : x = θ + z * (2 * Real.pi)) :
    Complex.exp (Complex.I * (x : ℂ)) = Complex.exp (Complex.I * (θ : ℂ)) := by
  rw [h, Complex.exp_eq_exp_iff_exists_int]
  exact ⟨z, by push_cast; ring⟩

/-- **C99** (twisted boundary conditions).  Moving one electron by a lattice vector on which all k-points of the occupied
orbitals have the same phase `θ` modulo 2π (a vector of the supercell) multiplies the reference determinant by
`exp(iθ)`: its amplitude, which is what is sampled, is periodic in the supercell. -/
theorem c99_twist (S : Periodic nk nao) (hL : IsUnit S.latvec.det) (hu : nu ≤ (occupiedList S.mf).1.length)
    (hd : nd ≤ (occupiedList S.mf).2.length) (i : Fin (nu + nd)) (m : Fin 3 → ℤ) (θ : ℝ)
    (hk : ∀ k ∈ S.orbitalKpoints, ∃ z : ℤ, ∑ c, k c * translation S.latvec m c = θ + z * (2 * Real.pi))
    (r : Fin (nu + nd) → Vec 3) :
    valueC (S.evalSlater (nu, nd) (fun _ => walker (shiftOne i (translation S.latvec m) r)) 0) =
      (valueC (S.evalSlater (nu, nd) (fun _ => walker r) 0)).map (fun z => Complex.exp (Complex.I * (θ : ℂ)) * z) ∧
    (S.evalSlater (nu, nd) (fun _ => walker (shiftOne i (translation S.latvec m) r)) 0).map (WithBot.map Complex.re) =
      (S.evalSlater (nu, nd) (fun _ => walker r) 0).map (WithBot.map Complex.re) := by
  have hw : ∀ (r : Fin (nu + nd) → Vec 3) (e : Fin (nu + nd)), walker r e = r e := fun r e => by simp [walker]
  obtain ⟨hB1, hB2⟩ := c99_bloch S hL hu hd
  have h1 : ∀ j r, orbUp S hu j (fun c => r c + translation S.latvec m c) = Complex.exp (Complex.I * (θ : ℂ)) * orbUp S hu j r := by
    intro j r
    obtain ⟨k, hk1, hk2⟩ := hB1 j
    obtain ⟨z, hz⟩ := hk k (List.mem_of_getElem? hk1)
    rw [hk2 r m, exp_int θ _ z hz]
  have h2 : ∀ j r, orbDown S hd j (fun c => r c + translation S.latvec m c) = Complex.exp (Complex.I * (θ : ℂ)) * orbDown S hd j r := by
    intro j r
    obtain ⟨k, hk1, hk2⟩ := hB2 j
    obtain ⟨z, hz⟩ := hk k (List.mem_of_getElem? hk1)
    rw [hk2 r m, exp_int θ _ z hz]
  obtain ⟨a1, a2⟩ := c99_value S hu hd (fun _ => walker r) 0 r (hw r)
  obtain ⟨b1, b2⟩ := c99_value S hu hd (fun _ => walker (shiftOne i (translation S.latvec m) r)) 0 _ (hw _)
  rw [a1, a2, b1, b2, det_row _ _ r i _ _ h1 h2]
  refine ⟨rfl, ?_⟩
  rw [re_log_mul]
  rw [mul_comm]; exact Complex.norm_exp_ofReal_mul_I θ

/-- **C99** (crystal momentum).  Moving all electrons by a lattice vector `R` of the primitive cell multiplies the reference
determinant by `exp(i K·R)`, where `K` is the sum of `get_orbital_kpoints()`; here every occupied orbital is filled. -/
theorem c99_momentum (S : Periodic nk nao) (hL : IsUnit S.latvec.det) (hu : nu = (occupiedList S.mf).1.length)
    (hd : nd = (occupiedList S.mf).2.length) (m : Fin 3 → ℤ) (r : Fin (nu + nd) → Vec 3) :
    valueC (S.evalSlater (nu, nd) (fun _ => walker (shift (translation S.latvec m) r)) 0) =
      (valueC (S.evalSlater (nu, nd) (fun _ => walker r) 0)).map (fun z =>
        Complex.exp (Complex.I * (((S.orbitalKpoints.map fun k => ∑ c, k c * translation S.latvec m c).sum : ℝ) : ℂ)) * z) := by
  have hw : ∀ (r : Fin (nu + nd) → Vec 3) (e : Fin (nu + nd)), walker r e = r e := fun r e => by simp [walker]
  have a1 := (c99_value S hu.le hd.le (fun _ => walker r) 0 r (hw r)).1
  have b1 := (c99_value S hu.le hd.le (fun _ => walker (shift (translation S.latvec m) r)) 0 _ (hw _)).1
  let ph : Fin nk × (Fin nao → ℂ) → ℂ := fun p => Complex.exp (Complex.I * ((∑ c, S.kpts p.1 c * translation S.latvec m c : ℝ) : ℂ))
  have prodE : ∀ (l : List (Fin nk × (Fin nao → ℂ))) (n : ℕ) (hn : n = l.length),
      ∏ j : Fin n, ph (l[j.val]'(hn ▸ j.2)) = (l.map ph).prod := by
    intro l n hn
    subst hn
    rw [← List.prod_ofFn]
    congr 1
    refine List.ext_getElem (by simp) fun i h1 h2 => by simp
  rw [a1, b1, det_cols (orbUp S hu.le) (orbDown S hd.le) r (translation S.latvec m) (fun j => ph ((occupiedList S.mf).1[j.val]'(hu ▸ j.2)))
    (fun j => ph ((occupiedList S.mf).2[j.val]'(hd ▸ j.2))) (fun j r => crystal_bloch S hL _ r m) (fun j r => crystal_bloch S hL _ r m),
    prodE _ _ hu, prodE _ _ hd, ← List.prod_append, ← List.map_append]
  rw [Option.map_some]
  congr 2
  rw [c99_kpoints, List.map_map]
  generalize (occupiedList S.mf).1 ++ (occupiedList S.mf).2 = l
  induction l with
  | nil => simp
  | cons p t ih =>
    simp only [List.map_cons, List.prod_cons, List.sum_cons, ih]
    push_cast
    rw [mul_add, Complex.exp_add]
    simp only [ph, Function.comp]

/-- **C99** (network and reference).  With the k-points handed to the network by the solid workflow
(`wf.klist = scf.get_orbital_kpoints()`) and every occupied orbital filled, moving one electron by a supercell vector
multiplies the network and the reference determinant by the same phase. -/
theorem c99_network {na : ℕ} (S : Periodic nk nao) (W : Wf.Solid) (hu : nu = (occupiedList S.mf).1.length)
    (hd : nd = (occupiedList S.mf).2.length) (hp : W.cell.prim = S.latvec) (hL : IsUnit S.latvec.det)
    (hs : IsUnit W.cell.sim.det) (hkl : ∀ j, j < nu + nd → S.orbitalKpoints[j]? = some (W.klist j))
    (T : Matrix (Fin 3) (Fin 3) ℤ) (hT : W.cell.sim = (T.map (fun z : ℤ => (z : ℝ))) * W.cell.prim)
    (i : Fin (nu + nd)) (m : Fin 3 → ℤ) (θ : ℝ)
    (hk : ∀ k ∈ S.orbitalKpoints, ∃ z : ℤ, ∑ c, k c * translation W.cell.sim m c = θ + z * (2 * Real.pi))
    (r : Fin (nu + nd) → Vec 3) (atoms : Fin na → Vec 3) :
    let moved := shiftOne i (translation W.cell.sim m) r
    Wf.Spec.MultipliedC (Complex.exp (Complex.I * (θ : ℂ))) (W.call r atoms) (W.call moved atoms) ∧
    valueC (S.evalSlater (nu, nd) (fun _ => walker moved) 0) =
      (valueC (S.evalSlater (nu, nd) (fun _ => walker r) 0)).map (fun z => Complex.exp (Complex.I * (θ : ℂ)) * z) := by
  intro moved
  have htr : translation W.cell.sim m = translation S.latvec (fun j => ∑ i, m i * T i j) := by
    funext c
    simp only [translation, hT, hp, Matrix.mul_apply, Matrix.map_apply]
    push_cast
    simp only [Finset.mul_sum, Finset.sum_mul]
    rw [Finset.sum_comm]
    exact Finset.sum_congr rfl fun j _ => Finset.sum_congr rfl fun i _ => by ring
  refine ⟨?_, ?_⟩
  · refine Wf.Props.c65_twist W (by rw [hp]; exact hL) hs T hT i m θ (fun j => ?_) r atoms
    obtain ⟨z, hz⟩ := hk _ (List.mem_of_getElem? (hkl j j.2))
    refine ⟨z, ?_⟩
    rw [← hz]
    simp only [Wf.Props.kdot, mul_comm]
  · have := (c99_twist S hL hu.le hd.le i (fun j => ∑ i, m i * T i j) θ (by rw [← htr]; exact hk) r).1
    rw [← htr] at this
    exact this

end Jaqmc.Scf.Props
