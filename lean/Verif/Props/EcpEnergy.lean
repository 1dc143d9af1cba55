import Verif.Props.Ecp
import Verif.Props.Geometry
/-!
C73: the energy of the effective core potential.
-/
namespace Jaqmc.Ecp.Props
open Jaqmc.Ecp Jaqmc.Ecp.Spec Jaqmc.Geometry MeasureTheory Matrix

variable {n : ℕ}

/-- The wavefunction reports a phase of modulus one at `r`. -/
def UnitPhase (phaseWf : (Fin n → Vec 3) → ℂ × ℝ) (r : Fin n → Vec 3) : Prop := (starRingEnd ℂ) (phaseWf r).1 * (phaseWf r).1 = 1

theorem ratio_eq (phaseWf : (Fin n → Vec 3) → ℂ × ℝ) (r r' : Fin n → Vec 3) (h : UnitPhase phaseWf r) :
    ratio phaseWf r r' = value (phaseWf r') / value (phaseWf r) := by
  have h1 : (phaseWf r).1 ≠ 0 := right_ne_zero_of_mul (h.symm ▸ one_ne_zero)
  unfold ratio value
  rw [eq_div_iff (mul_ne_zero h1 (Complex.exp_ne_zero _)), Complex.ofReal_sub, Complex.exp_sub]
  field_simp
  unfold UnitPhase at h
  linear_combination (phaseWf r').1 * h

/-- C73 (boundary): the displaced position is brought back to the cell and the ratio corrected by the Bloch phase; for a
wavefunction that satisfies the boundary conditions, this is the ratio at the displaced position itself. -/
theorem c73_ratio (b : Boundary) (phaseWf : (Fin n → Vec 3) → ℂ × ℝ) (r : Fin n → Vec 3) (e : Fin n) (p : Vec 3)
    (h : UnitPhase phaseWf r) (hb : Satisfies b (fun x => value (phaseWf x))) :
    displacedRatio b phaseWf r e p = value (phaseWf (Function.update r e p)) / value (phaseWf r) := by
  unfold displacedRatio
  cases hl : b.lattice with
  | none => exact ratio_eq phaseWf r _ h
  | some L =>
    obtain ⟨hdet, ht⟩ := hb L hl
    obtain ⟨-, ⟨m, hm⟩, -, -⟩ := Geometry.Props.c30_wrap L hdet p
    have hw : wrap L p = fun k => p k + Geometry.Spec.translation L m k := funext hm
    have h1 := ht (Function.update r e p) e m
    rw [Function.update_idem, Function.update_self, ← hw] at h1
    have hfrac : (fun k => p k - wrap L p k) ᵥ* L⁻¹ = fun k => -(m k : ℝ) := by
      have : (fun k => p k - wrap L p k) = (fun k => -(m k : ℝ)) ᵥ* L := by
        funext k
        rw [hw]
        simp [Geometry.Spec.translation, Matrix.vecMul, dotProduct]
      rw [this, Geometry.Props.vecMul_inv L hdet]
    have hphase : (wrapBloch L b.twist p).2 * Complex.exp (2 * Real.pi * Complex.I * ∑ k, (m k : ℂ) * ((b.twist.getD 0) k : ℂ)) = 1 := by
      unfold wrapBloch
      cases htw : b.twist with
      | none => simp
      | some t =>
        dsimp only
        rw [hfrac, ← Complex.exp_add]
        simp only [Option.getD_some]
        have : Complex.I * ((2 * Real.pi * ∑ k, -(m k : ℝ) * pmod (t k) 1 : ℝ) : ℂ) + 2 * Real.pi * Complex.I * ∑ k, (m k : ℂ) * (t k : ℂ)
            = ((∑ k, m k * ⌊t k⌋ : ℤ) : ℂ) * (2 * Real.pi * Complex.I) := by
          have e1 : ∀ k, pmod (t k) 1 = t k - ⌊t k⌋ := fun k => by rw [Geometry.Props.pmod_one]; rfl
          simp only [e1]
          push_cast
          simp only [Fin.sum_univ_three]
          ring
        rw [this, Complex.exp_int_mul_two_pi_mul_I]
    have hwb : (wrapBloch L b.twist p).1 = wrap L p := by unfold wrapBloch; cases b.twist <;> rfl
    dsimp only
    rw [ratio_eq phaseWf r _ h, hwb]
    unfold displace
    beta_reduce at h1
    rw [h1]
    linear_combination value (phaseWf (Function.update r e p)) / value (phaseWf r) * hphase

/-- A plane wave at the zone boundary in a cubic cell, and its displaced ratio. -/
example (r : Fin 1 → Vec 3) (p : Vec 3) :
    displacedRatio ⟨some 1, some ![3 / 2, 0, 0]⟩ (fun x => (Complex.exp (Complex.I * (3 * Real.pi * x 0 0 : ℝ)), 0)) r 0 p =
      Complex.exp (Complex.I * (3 * Real.pi * p 0 : ℝ)) / Complex.exp (Complex.I * (3 * Real.pi * r 0 0 : ℝ)) := by
  rw [c73_ratio]
  · simp [value]
  · unfold UnitPhase
    rw [← Complex.exp_conj, ← Complex.exp_add, map_mul, Complex.conj_I, Complex.conj_ofReal, neg_mul, neg_add_cancel, Complex.exp_zero]
  · intro L hL
    obtain rfl : 1 = L := by simpa using hL
    refine ⟨by simp, fun r e m => ?_⟩
    rw [Fin.fin_one_eq_zero e]
    simp [value, Function.update_self, ← Complex.exp_add, Geometry.Spec.translation, Fin.sum_univ_three, Matrix.one_apply]
    congr 1
    ring

theorem legendre_eq (l : ℕ) (hl : l ≤ 2) (x : ℝ) : legendre l x = P l x := by
  interval_cases l <;> simp [legendre, P]
  ring

/-- The Legendre factor is a polynomial of degree `l` in the point of the sphere. -/
theorem legendre_poly (l : ℕ) (hl : l ≤ 2) (v : Vec 3) : PolynomialOnSphere l (fun u => (P l (∑ k, u k * v k) : ℂ)) := by
  have hlin : (∑ k, MvPolynomial.C (v k : ℂ) * MvPolynomial.X k : MvPolynomial (Fin 3) ℂ).totalDegree ≤ 1 := by
    refine (MvPolynomial.totalDegree_finsetSum _ _).trans (Finset.sup_le fun k _ => ?_)
    refine (MvPolynomial.totalDegree_mul _ _).trans ?_
    simp [MvPolynomial.totalDegree_X]
  have hev : ∀ u : Vec 3, MvPolynomial.eval (fun k => (u k : ℂ)) (∑ k, MvPolynomial.C (v k : ℂ) * MvPolynomial.X k) = ((∑ k, u k * v k : ℝ) : ℂ) := by
    intro u
    push_cast
    simp [mul_comm]
  interval_cases l
  · exact ⟨1, by simp, fun u _ => by simp [P]⟩
  · exact ⟨_, hlin, fun u _ => by rw [hev]; simp [P]⟩
  · refine ⟨MvPolynomial.C (3 / 2) * (∑ k, MvPolynomial.C (v k : ℂ) * MvPolynomial.X k) ^ 2 - MvPolynomial.C (1 / 2), ?_, fun u _ => ?_⟩
    · refine (MvPolynomial.totalDegree_sub _ _).trans (max_le ?_ (by simp))
      refine (MvPolynomial.totalDegree_mul _ _).trans ?_
      rw [MvPolynomial.totalDegree_C, zero_add]
      exact (MvPolynomial.totalDegree_pow _ _).trans (by omega)
    · rw [map_sub, map_mul, map_pow, hev, MvPolynomial.eval_C, MvPolynomial.eval_C]
      simp [P]
      ring

theorem poly_mul {a b : ℕ} {f g : Vec 3 → ℂ} (hf : PolynomialOnSphere a f) (hg : PolynomialOnSphere b g) :
    PolynomialOnSphere (a + b) (fun u => f u * g u) := by
  obtain ⟨p, hp, hpf⟩ := hf
  obtain ⟨q, hq, hqg⟩ := hg
  exact ⟨p * q, (MvPolynomial.totalDegree_mul _ _).trans (by omega), fun u hu => by beta_reduce; rw [map_mul, hpf u hu, hqg u hu]⟩

theorem poly_mono {a b : ℕ} {f : Vec 3 → ℂ} (hf : PolynomialOnSphere a f) (h : a ≤ b) : PolynomialOnSphere b f := by
  obtain ⟨p, hp, hpf⟩ := hf
  exact ⟨p, hp.trans h, hpf⟩

theorem length_eq {d : ℕ} (v : Vec d) : Geometry.Spec.length v = Geometry.norm v := by
  unfold Geometry.Spec.length Geometry.norm
  simp [sq]

/-- C73 (projection): for an electron away from the atom, and a wavefunction that, on the sphere around the atom through the
electron, is a polynomial within the reach of the rule, the code's integral is the projection on angular momentum `l`. -/
theorem c73_projection (kind : String) (nq d : ℕ) (q : Rule) (hq : getQuadrature kind nq = some q) (hd : degree kind nq = some d)
    (b : Boundary) (phaseWf : (Fin n → Vec 3) → ℂ × ℝ) (r : Fin n → Vec 3) (e : Fin n) (atom : Vec 3) (_hne : r e ≠ atom)
    (h : UnitPhase phaseWf r) (hb : Satisfies b (fun x => value (phaseWf x)))
    (u1 u2 : ℝ) (h0 : 0 ≤ u2) (h1 : u2 ≤ 1) (l : ℕ) (hl : l ≤ 2) (a : ℕ) (ha : a + l ≤ d)
    (hpoly : PolynomialOnSphere a (fun u => value (phaseWf (Function.update r e
      (fun k => atom k + Geometry.Spec.length (fun k => r e k - atom k) * u k))) / value (phaseWf r))) :
    channelIntegral q b phaseWf r e atom (q.rotated (rotation u1 u2)) l = projection (fun x => value (phaseWf x)) r e atom l := by
  unfold channelIntegral projection
  dsimp only
  simp only [length_eq] at hpoly ⊢
  have hp := poly_mono (poly_mul (legendre_poly l hl (fun k => (r e k - atom k) / Geometry.norm (fun k => r e k - atom k))) hpoly)
    (by omega : l + a ≤ d)
  rw [← c71_exact kind nq d q hq hd u1 u2 h0 h1 _ hp]
  have : ∀ u : Vec 3, displacedRatio b phaseWf r e (fun k => atom k + Geometry.norm (fun k => r e k - atom k) * u k) =
      value (phaseWf (Function.update r e (fun k => atom k + Geometry.norm (fun k => r e k - atom k) * u k))) / value (phaseWf r) :=
    fun u => c73_ratio b phaseWf r e _ h hb
  simp only [this, legendre_eq l hl]
  ring

/-! ### Tables of the radial potentials -/

theorem radialValue_append (a b : List Term) (r : ℝ) : radialValue (a ++ b) r = radialValue a r + radialValue b r := by
  simp [radialValue]

theorem radialValue_zeros (k : ℕ) (r : ℝ) : radialValue (List.replicate k (0, 0, 0)) r = 0 := by
  simp [radialValue]

theorem radialValue_flatten (groups : List (List (ℝ × ℝ))) (r : ℝ) : radialValue (flattenTerms groups) r = radial groups r := by
  unfold flattenTerms radial radialValue
  rw [List.map_flatten, List.sum_flatten, List.map_map, List.map_map]
  rw [← List.sum_ofFn]
  congr 1
  apply List.ext_getElem
  · simp
  · intro i h1 h2
    simp [Function.comp_def]

theorem flattenTerms_length (groups : List (List (ℝ × ℝ))) : (flattenTerms groups).length = (groups.map List.length).sum := by
  unfold flattenTerms
  rw [List.length_flatten, List.map_map]
  congr 1
  apply List.ext_getElem
  · simp
  · intro i h1 h2
    simp

theorem fold_skip (cs : List (ℤ × List (List (ℝ × ℝ)))) (ch : ℕ) (row : List Term) (h : ∀ c ∈ cs, c.1 + 1 ≠ (ch : ℤ)) :
    cs.foldl (fun row c => if c.1 + 1 = (ch : ℤ) then writeRow row (flattenTerms c.2) else row) row = row := by
  induction cs generalizing row with
  | nil => rfl
  | cons c cs ih =>
    rw [List.foldl_cons, if_neg (h c (by simp))]
    exact ih row fun c hc => h c (by simp [hc])

/-- C73 (tables): however the channels are ordered and padded, the code's radial value in channel `l + 1` is the potential
`Σ_k c_k r^{n_k-2} exp(-α_k r²)` of angular momentum `l`. -/
theorem c73_radial (p : PyscfEcp) (hnd : (p.channels.map (·.1)).Nodup) (width : ℕ)
    (hw : ∀ c ∈ p.channels, (c.2.map List.length).sum ≤ width) (l : ℤ) (ch : ℕ) (hch : l + 1 = ch) (r : ℝ) (_hr : 0 < r) :
    radialValue (paddedRow width p ch) r = potential p l r := by
  unfold paddedRow potential
  obtain ⟨core, cs⟩ := p
  dsimp only at hnd hw ⊢
  induction cs with
  | nil => simp [radialValue_zeros]
  | cons c cs ih =>
    rw [List.foldl_cons, List.lookup_cons]
    rw [List.map_cons, List.nodup_cons] at hnd
    by_cases hc : c.1 = l
    · have hb : (l == c.1) = true := by simp [hc]
      rw [hb, if_pos (by omega)]
      rw [fold_skip]
      · unfold writeRow
        dsimp only
        rw [radialValue_append, radialValue_flatten, List.drop_replicate, radialValue_zeros, add_zero]
      · intro c' hc' h
        refine hnd.1 (List.mem_map.mpr ⟨c', hc', ?_⟩)
        omega
    · have hb : (l == c.1) = false := by simpa using fun h => hc h.symm
      rw [hb, if_neg (by omega)]
      exact ih hnd.2 fun c hc => hw c (by simp [hc])

/-! ### Nearest atoms -/

/-- C73 (selection): the nonlocal part keeps `min max_core m` different atoms, and no atom left out is nearer than one kept. -/
theorem c73_nearest {m : ℕ} (maxCore : ℕ) (dist : Fin m → ℝ) :
    (nearest maxCore dist).Nodup ∧ (nearest maxCore dist).length = min maxCore m ∧
    (∀ i ∈ nearest maxCore dist, ∀ j, j ∉ nearest maxCore dist → dist i ≤ dist j) ∧
    (m ≤ maxCore → ∀ i, i ∈ nearest maxCore dist) := by
  unfold nearest
  split
  · rename_i h
    exact ⟨List.nodup_finRange m, by simp [h], fun i _ j hj => absurd (List.mem_finRange j) hj, fun _ i => List.mem_finRange i⟩
  · rename_i h
    set L := (List.finRange m).mergeSort (fun i j => decide (dist i ≤ dist j)) with hL
    have hperm : L.Perm (List.finRange m) := List.mergeSort_perm _ _
    have hnd : L.Nodup := hperm.nodup_iff.mpr (List.nodup_finRange m)
    have hsorted : L.Pairwise (fun i j => dist i ≤ dist j) := by
      have := List.pairwise_mergeSort (le := fun i j : Fin m => decide (dist i ≤ dist j))
        (by intro a b c; simp only [decide_eq_true_eq]; exact le_trans)
        (by intro a b; simp only [Bool.or_eq_true, decide_eq_true_eq]; exact le_total _ _) (List.finRange m)
      simpa [hL] using this
    refine ⟨hnd.sublist (List.take_sublist _ _), ?_, ?_, fun h' => absurd h' h⟩
    · rw [List.length_take, hperm.length_eq, List.length_finRange]
    · intro i hi j hj
      have hjL : j ∈ L := hperm.mem_iff.mpr (List.mem_finRange j)
      rw [← List.take_append_drop maxCore L] at hjL hsorted
      rcases List.mem_append.mp hjL with h1 | h1
      · exact absurd h1 hj
      · exact (List.pairwise_append.mp hsorted).2.2 i hi j h1

/-- Two potential atoms at distances 3 and 1, one kept: the second. -/
example : nearest 1 ![(3 : ℝ), 1] = [1] := by
  obtain ⟨hnd, hlen, hle, -⟩ := c73_nearest 1 ![(3 : ℝ), 1]
  obtain ⟨x, hx⟩ := List.length_eq_one_iff.mp (hlen.trans (by norm_num))
  rw [hx] at hle ⊢
  fin_cases x
  · have := hle 0 (by simp) 1 (by simp)
    norm_num at this
  · rfl

/-! ### The energy -/

theorem le_foldl_max (l : List ℕ) (a x : ℕ) (h : x ∈ l ∨ x ≤ a) : x ≤ l.foldl max a := by
  induction l generalizing a with
  | nil => simpa using h
  | cons y l ih =>
    rw [List.foldl_cons]
    refine ih _ ?_
    rcases h with h | h
    · rcases List.mem_cons.mp h with rfl | h
      · exact Or.inr (le_max_right _ _)
      · exact Or.inl h
    · exact Or.inr (h.trans (le_max_left _ _))

theorem foldl_max_le (l : List ℕ) (a b : ℕ) (ha : a ≤ b) (h : ∀ x ∈ l, x ≤ b) : l.foldl max a ≤ b := by
  induction l generalizing a with
  | nil => simpa using ha
  | cons y l ih =>
    rw [List.foldl_cons]
    exact ih _ (max_le ha (h y (by simp))) fun x hx => h x (by simp [hx])

theorem lookup_mem {α β : Type} [BEq α] [LawfulBEq α] (l : List (α × β)) (a : α) (b : β) (h : l.lookup a = some b) : (a, b) ∈ l := by
  induction l with
  | nil => simp at h
  | cons x l ih =>
    obtain ⟨k, v⟩ := x
    rw [List.lookup_cons] at h
    by_cases hk : a = k
    · subst hk
      simp at h
      simp [h]
    · have : (a == k) = false := by simpa using hk
      rw [this] at h
      exact List.mem_cons_of_mem _ (ih h)

/-- Every atom of the estimator has the potential the dictionary gives its element. -/
theorem atoms_mem (E : Estimator) (a : ℕ × PyscfEcp) (h : a ∈ E.atoms) : ∃ s, (s, a.2) ∈ E.coeffs ∧ E.symbols[a.1]? = some s := by
  unfold Estimator.atoms ecpAtoms at h
  obtain ⟨⟨s, i⟩, h1, h2⟩ := List.mem_filterMap.mp h
  dsimp only at h2
  obtain ⟨p, hp, rfl⟩ := Option.map_eq_some_iff.mp h2
  refine ⟨s, lookup_mem _ _ _ hp, ?_⟩
  have := List.mem_zipIdx' h1
  rw [List.getElem?_eq_some_iff]
  exact ⟨this.1, this.2.symm⟩

/-- The image of atom `a` (in the list of atoms with a potential) seen from electron `e`. -/
noncomputable def image (E : Estimator) (disp : Vec 3 → Vec 3 → Vec 3) (r : Fin n → Vec 3) (atomPos : ℕ → Vec 3) (e : Fin n)
    (a : Fin E.atoms.length) : Vec 3 := fun k => r e k - disp (r e) (atomPos (E.atoms.get a).1) k

/-- The distance of electron `e` to that image. -/
noncomputable def distTo (E : Estimator) (disp : Vec 3 → Vec 3 → Vec 3) (r : Fin n → Vec 3) (atomPos : ℕ → Vec 3) (e : Fin n)
    (a : Fin E.atoms.length) : ℝ := Geometry.Spec.length (fun k => r e k - image E disp r atomPos e a k)

/-- C73: with tables of angular momenta up to 2 the reported energy is the sum over electrons and atoms of the local potential
and, over electrons, their nearest atoms and the angular momenta `0, 1, 2`, of the radial potential times the projection of
the wavefunction, whenever the wavefunction is, on the spheres concerned, a polynomial within the reach of the rule. -/
theorem c73_energy (E : Estimator) (kind : String) (nq d : ℕ) (hq : getQuadrature kind nq = some E.rule) (hd : degree kind nq = some d)
    (hatoms : E.atoms ≠ []) (hnd : ∀ c ∈ E.coeffs, (c.2.channels.map (·.1)).Nodup)
    (hl : ∀ c ∈ E.coeffs, ∀ ch ∈ c.2.channels, -1 ≤ ch.1 ∧ ch.1 ≤ 2)
    (disp : Vec 3 → Vec 3 → Vec 3) (phaseWf : (Fin n → Vec 3) → ℂ × ℝ) (r : Fin n → Vec 3) (atomPos : ℕ → Vec 3)
    (hpos : ∀ e a, 0 < distTo E disp r atomPos e a)
    (h : UnitPhase phaseWf r) (hb : Satisfies E.boundary (fun x => value (phaseWf x)))
    (u1 u2 : Fin n → ℝ) (h0 : ∀ e, 0 ≤ u2 e) (h1 : ∀ e, u2 e ≤ 1) (deg : ℕ) (hdeg : deg + 2 ≤ d)
    (hpoly : ∀ e a, a ∈ nearest E.maxCore (distTo E disp r atomPos e) →
      PolynomialOnSphere deg (fun u => value (phaseWf (Function.update r e
        (fun k => image E disp r atomPos e a k + distTo E disp r atomPos e a * u k))) / value (phaseWf r))) :
    E.energy disp phaseWf r atomPos (fun e => rotation (u1 e) (u2 e)) = some
      (∑ e, ∑ a, (potential (E.atoms.get a).2 (-1) (distTo E disp r atomPos e a) : ℂ) +
        ∑ e, ((nearest E.maxCore (distTo E disp r atomPos e)).map fun a => ∑ l ∈ Finset.range 3,
          (potential (E.atoms.get a).2 l (distTo E disp r atomPos e a) : ℂ) *
            projection (fun x => value (phaseWf x)) r e (image E disp r atomPos e a) l).sum) := by
  have hdist : ∀ e a, Geometry.norm (disp (r e) (atomPos (E.atoms.get a).1)) = distTo E disp r atomPos e a := by
    intro e a
    unfold distTo image
    rw [length_eq]
    congr 1
    funext k
    ring
  have hchan : numChannels E.coeffs - 1 ≤ 3 := by
    have : numChannels E.coeffs ≤ 4 := by
      refine foldl_max_le _ _ _ (by norm_num) fun x hx => ?_
      obtain ⟨c, hc, hx⟩ := List.mem_flatMap.mp hx
      obtain ⟨ch, hch, rfl⟩ := List.mem_map.mp hx
      have := hl c hc ch hch
      omega
    omega
  have hwidth : ∀ a ∈ E.atoms, ∀ c ∈ a.2.channels, (c.2.map List.length).sum ≤ maxTerms (E.atoms.map (·.2)) := by
    intro a ha c hc
    refine le_foldl_max _ _ _ (Or.inl ?_)
    exact List.mem_flatMap.mpr ⟨a.2, List.mem_map.mpr ⟨a, ha, rfl⟩, List.mem_map.mpr ⟨c, hc, rfl⟩⟩
  have hrad : ∀ e (a : Fin E.atoms.length) (ch : ℕ), radialValue (paddedRow (maxTerms (E.atoms.map (·.2))) (E.atoms.get a).2 ch)
      (distTo E disp r atomPos e a) = potential (E.atoms.get a).2 ((ch : ℤ) - 1) (distTo E disp r atomPos e a) := by
    intro e a ch
    obtain ⟨s, hs, -⟩ := atoms_mem E _ (List.get_mem E.atoms a)
    exact c73_radial _ (hnd _ hs) _ (hwidth _ (List.get_mem E.atoms a)) _ _ (by ring) _ (hpos e a)
  have hzero : ∀ (a : Fin E.atoms.length) (l : ℕ), numChannels E.coeffs - 1 ≤ l → ∀ x, potential (E.atoms.get a).2 l x = 0 := by
    intro a l hle x
    unfold potential
    obtain ⟨s, hs, -⟩ := atoms_mem E _ (List.get_mem E.atoms a)
    cases hlk : (E.atoms.get a).2.channels.lookup (l : ℤ) with
    | none => rfl
    | some g =>
      exfalso
      have hm := lookup_mem _ _ _ hlk
      have : l + 2 ≤ numChannels E.coeffs := by
        refine le_foldl_max _ _ _ (Or.inl ?_)
        refine List.mem_flatMap.mpr ⟨_, hs, List.mem_map.mpr ⟨_, hm, ?_⟩⟩
        dsimp only
        omega
      omega
  unfold Estimator.energy
  dsimp only
  rw [if_neg hatoms, if_neg (by omega)]
  simp only [hdist, hrad]
  congr 1
  congr 1
  · push_cast; simp
  · refine Finset.sum_congr rfl fun e _ => ?_
    congr 1
    refine List.map_congr_left fun a ha => ?_
    have e1 : (Finset.range 3) = Finset.range (numChannels E.coeffs - 1) ∪ (Finset.range 3 \ Finset.range (numChannels E.coeffs - 1)) := by
      rw [Finset.union_sdiff_of_subset]
      exact Finset.range_subset_range.mpr hchan
    rw [e1, Finset.sum_union Finset.disjoint_sdiff, Finset.sum_eq_zero (s := Finset.range 3 \ _), add_zero, ← Fin.sum_univ_eq_sum_range
      (fun l => (potential (E.atoms.get a).2 l (distTo E disp r atomPos e a) : ℂ) *
            projection (fun x => value (phaseWf x)) r e (image E disp r atomPos e a) l)]
    · refine Finset.sum_congr rfl fun l _ => ?_
      have hne : r e ≠ image E disp r atomPos e a := by
        intro hcon
        have := hpos e a
        unfold distTo at this
        rw [← hcon] at this
        simp [Geometry.Spec.length] at this
      have := c73_projection kind nq d E.rule hq hd E.boundary phaseWf r e (image E disp r atomPos e a) hne h hb (u1 e) (u2 e) (h0 e) (h1 e)
        (l : ℕ) (by omega) deg (by omega) (hpoly e a ha)
      change channelIntegral E.rule E.boundary phaseWf r e (image E disp r atomPos e a) _ _ * _ = _
      rw [this, mul_comm]
      congr 3
      push_cast
      ring
    · intro l hl'
      rw [Finset.mem_sdiff, Finset.mem_range, Finset.mem_range] at hl'
      rw [hzero a l (by omega)]
      simp

/-- C73: tables with angular momentum 3 or more are refused, as is a system without an atom that has a potential. -/
theorem c73_refused (E : Estimator) (disp : Vec 3 → Vec 3 → Vec 3) (phaseWf : (Fin n → Vec 3) → ℂ × ℝ) (r : Fin n → Vec 3)
    (atomPos : ℕ → Vec 3) (R : Fin n → Matrix (Fin 3) (Fin 3) ℝ) :
    ((∀ s ∈ E.symbols, ∀ p, (s, p) ∉ E.coeffs) → E.energy disp phaseWf r atomPos R = none) ∧
    (∀ c ∈ E.coeffs, ∀ ch ∈ c.2.channels, 3 ≤ ch.1 → E.maxCore ≠ 0 → E.energy disp phaseWf r atomPos R = none) := by
  constructor
  · intro hs
    have : E.atoms = [] := by
      rw [List.eq_nil_iff_forall_not_mem]
      intro a ha
      obtain ⟨s, h1, h2⟩ := atoms_mem E a ha
      exact hs s (List.mem_of_getElem? h2) _ h1
    unfold Estimator.energy
    dsimp only
    rw [if_pos this]
  · intro c hc ch hch h3 hm
    have : 5 ≤ numChannels E.coeffs := by
      refine le_trans (by omega : 5 ≤ (ch.1 + 2).toNat) ?_
      exact le_foldl_max _ _ _ (Or.inl (List.mem_flatMap.mpr ⟨c, hc, List.mem_map.mpr ⟨ch, hch, rfl⟩⟩))
    unfold Estimator.energy
    dsimp only
    split
    · rfl
    · rw [if_pos ⟨by omega, hm⟩]

/-- A lithium hydride molecule with a potential on lithium (local and `s`), the default rule. -/
noncomputable def lih (q : Rule) : Estimator where
  maxCore := 2
  rule := q
  boundary := ⟨none, none⟩
  coeffs := [("Li", ⟨2, [(-1, [[], [], [(1, 2)]]), (0, [[], [], [(3, 5), (4, 1)]])]⟩)]
  symbols := ["H", "Li"]

/-- C73, a concrete case: one electron with `ψ = 1 + x²` in that molecule; every hypothesis of the theorem holds, in every
frame and at every position away from the lithium atom. -/
example (q : Rule) (hq : getQuadrature "icosahedron" 12 = some q) (r : Fin 1 → Vec 3) (atomPos : ℕ → Vec 3) (hne : r 0 ≠ atomPos 1)
    (u1 u2 : Fin 1 → ℝ) (h0 : ∀ e, 0 ≤ u2 e) (h1 : ∀ e, u2 e ≤ 1) :
    ∃ z, (lih q).energy (fun x a k => x k - a k) (fun x => (1, Real.log (1 + x 0 0 ^ 2))) r atomPos (fun e => rotation (u1 e) (u2 e)) = some z := by
  have hat : (lih q).atoms = [(1, ⟨2, [(-1, [[], [], [(1, 2)]]), (0, [[], [], [(3, 5), (4, 1)]])]⟩)] := rfl
  have himg : ∀ e a, image (lih q) (fun x a k => x k - a k) r atomPos e a = atomPos 1 := by
    intro e a
    have ha : (lih q).atoms.get a = (1, ⟨2, [(-1, [[], [], [(1, 2)]]), (0, [[], [], [(3, 5), (4, 1)]])]⟩) := by
      have : (lih q).atoms.get a ∈ (lih q).atoms := List.get_mem _ _
      have key : ∀ x ∈ (lih q).atoms, x = (1, ⟨2, [(-1, [[], [], [(1, 2)]]), (0, [[], [], [(3, 5), (4, 1)]])]⟩) := by
        intro x hx
        rw [hat] at hx
        simpa using hx
      exact key _ this
    unfold image
    rw [ha]
    funext k
    ring
  refine ⟨_, c73_energy (lih q) "icosahedron" 12 5 hq rfl (by rw [hat]; simp) ?_ ?_ _ _ r atomPos ?_ ?_ ?_ u1 u2 h0 h1 2 (by norm_num) ?_⟩
  · simp [lih]
  · simp [lih]
    rintro a b (⟨rfl, -⟩ | ⟨rfl, -⟩) <;> norm_num
  · intro e a
    unfold distTo
    rw [himg, length_eq, Fin.fin_one_eq_zero e]
    unfold Geometry.norm
    rw [Real.sqrt_pos]
    obtain ⟨k, hk⟩ := Function.ne_iff.mp hne
    have : r 0 k - atomPos 1 k ≠ 0 := sub_ne_zero.mpr hk
    exact Finset.sum_pos' (fun i _ => sq_nonneg _) ⟨k, Finset.mem_univ _, by positivity⟩
  · simp [UnitPhase]
  · intro L hL
    simp [lih] at hL
  · intro e a _
    rw [himg]
    have hv : ∀ x : Fin 1 → Vec 3, value ((1 : ℂ), Real.log (1 + x 0 0 ^ 2)) = 1 + (x 0 0 : ℂ) ^ 2 := by
      intro x
      unfold value
      rw [← Complex.ofReal_exp, Real.exp_log (by positivity)]
      push_cast
      ring
    simp only [hv]
    generalize distTo (lih q) (fun x a k => x k - a k) r atomPos e a = D
    rw [Fin.fin_one_eq_zero e]
    simp only [Function.update_self]
    refine ⟨(MvPolynomial.C 1 + (MvPolynomial.C (atomPos 1 0 : ℂ) + MvPolynomial.C (D : ℂ) * MvPolynomial.X 0) ^ 2) * MvPolynomial.C (1 + (r 0 0 : ℂ) ^ 2)⁻¹,
      ?_, ?_⟩
    · refine (MvPolynomial.totalDegree_mul _ _).trans ?_
      rw [MvPolynomial.totalDegree_C, add_zero]
      refine (MvPolynomial.totalDegree_add _ _).trans (max_le (by simp) ?_)
      refine (MvPolynomial.totalDegree_pow _ _).trans ?_
      have : (MvPolynomial.C (atomPos 1 0 : ℂ) + MvPolynomial.C (D : ℂ) * MvPolynomial.X (0 : Fin 3)).totalDegree ≤ 1 := by
        refine (MvPolynomial.totalDegree_add _ _).trans (max_le (by simp) ?_)
        refine (MvPolynomial.totalDegree_mul _ _).trans ?_
        simp [MvPolynomial.totalDegree_X]
      omega
    · intro u _
      simp
      rfl

end Jaqmc.Ecp.Props
