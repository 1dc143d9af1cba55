import Verif.Props.LegacyPp
/-!
C114: the effective core energy of the legacy package.
-/
namespace Jaqmc.LegacyPp.Props
open Jaqmc.LegacyPp Jaqmc.Geometry
open Jaqmc.Ecp (PyscfEcp Rule rotation getQuadrature radialValue flattenTerms)
open Jaqmc.Ecp.Spec (P PolynomialOnSphere sphereIntegral degree)
open scoped Topology Classical

variable {n : ℕ}

/-! ### Legendre polynomials and quadrature -/

/-- C114 (Legendre polynomials): the closed forms are those of Bonnet's recursion up to `l = 7`; beyond, nothing is returned. -/
theorem c114_legendre (l : ℕ) (x : ℝ) : (l ≤ 7 → legendre l x = some (P l x)) ∧ (7 < l → legendre l x = none) := by
  constructor
  · intro hl
    interval_cases l <;> simp only [legendre, P, Option.some.injEq] <;> push_cast <;> ring
  · intro hl
    obtain ⟨k, rfl⟩ : ∃ k, l = k + 8 := ⟨l - 8, by omega⟩
    rfl

/-- The Legendre factor of any `l` is a polynomial of degree `l` in the point of the sphere. -/
theorem legendre_poly (l : ℕ) (v : Vec 3) : PolynomialOnSphere l (fun u => (P l (∑ k, u k * v k) : ℂ)) := by
  have hlin : PolynomialOnSphere 1 (fun u => ((∑ k, u k * v k : ℝ) : ℂ)) := by
    have := Ecp.Props.legendre_poly 1 (by norm_num) v
    simpa [P] using this
  induction l using Nat.strong_induction_on with
  | _ l ih =>
    match l with
    | 0 => exact Ecp.Props.legendre_poly 0 (by norm_num) v
    | 1 => exact Ecp.Props.legendre_poly 1 (by norm_num) v
    | l + 2 =>
      obtain ⟨p, hp, hpe⟩ := ih (l + 1) (by omega)
      obtain ⟨q, hq, hqe⟩ := ih l (by omega)
      obtain ⟨a, ha, hae⟩ := hlin
      refine ⟨MvPolynomial.C (((2 * l + 3) / (l + 2) : ℂ)) * (a * p) - MvPolynomial.C (((l + 1) / (l + 2) : ℂ)) * q, ?_, fun u hu => ?_⟩
      · refine (MvPolynomial.totalDegree_sub _ _).trans (max_le ?_ ?_)
        · refine (MvPolynomial.totalDegree_mul _ _).trans ?_
          rw [MvPolynomial.totalDegree_C, zero_add]
          exact (MvPolynomial.totalDegree_mul _ _).trans (by omega)
        · refine (MvPolynomial.totalDegree_mul _ _).trans ?_
          rw [MvPolynomial.totalDegree_C, zero_add]
          omega
      · have h1 := hpe u hu
        have h2 := hqe u hu
        have h3 := hae u hu
        rw [map_sub, map_mul, map_mul, map_mul, MvPolynomial.eval_C, MvPolynomial.eval_C, ← h1, ← h2, ← h3]
        simp only [P]
        push_cast
        ring

/-- The polynomials a rule of the legacy package integrates exactly; the default is the icosahedral one. -/
def exactDegree : Option String → Option ℕ
  | none => some 5
  | some "octahedron_6" => some 3
  | some "octahedron_26" => some 7
  | some "icosahedron_12" => some 5
  | some _ => none

/-- C114 (quadrature): the three rules integrate polynomials of the stated degrees exactly in every random frame; other names are refused. -/
theorem c114_quadrature (id : Option String) :
    (∀ d, exactDegree id = some d → ∃ q, getRule id = some q ∧ ∀ (u1 u2 : ℝ), 0 ≤ u2 → u2 ≤ 1 → ∀ f, PolynomialOnSphere d f →
      q.integrate ((q.rotated (rotation u1 u2)).map f) = sphereIntegral f) ∧
    (exactDegree id = none → getRule id = none) := by
  have ho6 : ∃ q, Ecp.octahedron 6 = some q := ⟨_, by unfold Ecp.octahedron Ecp.octCoefs; rfl⟩
  have ho26 : ∃ q, Ecp.octahedron 26 = some q := ⟨_, by unfold Ecp.octahedron Ecp.octCoefs; rfl⟩
  have hi : ∃ q, Ecp.icosahedron 12 = some q := ⟨_, by unfold Ecp.icosahedron Ecp.icoCoefs; rfl⟩
  constructor
  · intro d hd
    unfold exactDegree at hd
    split at hd <;> simp only [Option.some.injEq, reduceCtorEq] at hd <;> subst hd
    · obtain ⟨q, hq⟩ := hi
      exact ⟨q, hq, fun u1 u2 h0 h1 f hf => Ecp.Props.c71_exact "icosahedron" 12 5 q (by simpa [getQuadrature] using hq) rfl u1 u2 h0 h1 f hf⟩
    · obtain ⟨q, hq⟩ := ho6
      exact ⟨q, hq, fun u1 u2 h0 h1 f hf => Ecp.Props.c71_exact "octahedron" 6 3 q (by simpa [getQuadrature] using hq) rfl u1 u2 h0 h1 f hf⟩
    · obtain ⟨q, hq⟩ := ho26
      exact ⟨q, hq, fun u1 u2 h0 h1 f hf => Ecp.Props.c71_exact "octahedron" 26 7 q (by simpa [getQuadrature] using hq) rfl u1 u2 h0 h1 f hf⟩
    · obtain ⟨q, hq⟩ := hi
      exact ⟨q, hq, fun u1 u2 h0 h1 f hf => Ecp.Props.c71_exact "icosahedron" 12 5 q (by simpa [getQuadrature] using hq) rfl u1 u2 h0 h1 f hf⟩
  · intro hd
    unfold exactDegree at hd
    unfold getRule
    split at hd <;> simp only [reduceCtorEq] at hd
    rename_i s h1 h2 h3
    simp only [Option.getD_some]

/-! ### Projection -/

/-- The wavefunction of the legacy code: a sign and the logarithm of the modulus. -/
noncomputable def wf (psi : (Fin n → Vec 3) → ℝ × ℝ) (y : Fin n → Vec 3) : ℂ := ((psi y).1 * Real.exp (psi y).2 : ℝ)

theorem ratio_eq (psi : (Fin n → Vec 3) → ℝ × ℝ) (r r' : Fin n → Vec 3) (h : (psi r).1 = 1 ∨ (psi r).1 = -1) :
    ((ratio psi r r' : ℝ) : ℂ) = wf psi r' / wf psi r := by
  unfold ratio wf
  rw [← Complex.ofReal_div]
  congr 1
  rw [Real.exp_sub]
  have := Real.exp_ne_zero (psi r).2
  rcases h with h | h <;> rw [h] <;> field_simp

/-- C114 (projection): for a wavefunction that, on the sphere around the atom through the electron, is a polynomial within the reach of
the rule, the code's integral is the projection on angular momentum `l`. -/
theorem c114_projection (id : Option String) (d : ℕ) (hd : exactDegree id = some d) (q : Rule) (hq : getRule id = some q)
    (psi : (Fin n → Vec 3) → ℝ × ℝ) (r : Fin n → Vec 3) (e : Fin n) (atom : Vec 3) (_hne : r e ≠ atom) (hs : (psi r).1 = 1 ∨ (psi r).1 = -1)
    (u1 u2 : ℝ) (h0 : 0 ≤ u2) (h1 : u2 ≤ 1) (l : ℕ) (hl : l ≤ 7) (a : ℕ) (ha : a + l ≤ d)
    (hpoly : PolynomialOnSphere a (fun u => wf psi (Function.update r e
      (fun k => atom k + Geometry.Spec.length (fun k => r e k - atom k) * u k)) / wf psi r)) :
    ((channelIntegral q psi r e atom (q.rotated (rotation u1 u2)) l : ℝ) : ℂ) = Ecp.Spec.projection (wf psi) r e atom l := by
  unfold channelIntegral Ecp.Spec.projection
  dsimp only
  simp only [Ecp.Props.length_eq] at hpoly ⊢
  have hp := Ecp.Props.poly_mono (Ecp.Props.poly_mul (legendre_poly l (fun k => (r e k - atom k) / Geometry.norm (fun k => r e k - atom k))) hpoly)
    (by omega : l + a ≤ d)
  obtain ⟨q', hq', hex⟩ := (c114_quadrature id).1 d hd
  obtain rfl : q' = q := Option.some.inj (hq'.symm.trans hq)
  rw [← hex u1 u2 h0 h1 _ hp]
  have hz : ∀ (A : List (Vec 3)) (c : List ℝ) (g : Vec 3 → ℝ) (G : Vec 3 → ℂ), (∀ u, (g u : ℂ) = G u) →
      (((List.zipWith (fun x c => x * c) (A.map g) c).sum : ℝ) : ℂ) =
        (List.zipWith (fun (v : ℂ) (c : ℝ) => v * (c : ℂ)) (A.map G) c).sum := by
    intro A c g G hg
    induction A generalizing c with
    | nil => simp
    | cons u A ih =>
      cases c with
      | nil => simp
      | cons c0 c => simp [ih, hg]
  unfold Rule.integrate
  push_cast
  rw [hz _ _ _ (fun u => (P l (∑ k, u k * ((r e k - atom k) / Geometry.norm (fun k => r e k - atom k))) : ℂ) *
    (wf psi (Function.update r e (fun k => atom k + Geometry.norm (fun k => r e k - atom k) * u k)) / wf psi r))]
  · field_simp
  · intro u
    rw [(c114_legendre l _).1 hl]
    rw [Option.getD_some, Complex.ofReal_mul, ratio_eq psi r _ hs]
    congr 4
    funext k
    ring

/-! ### Atoms -/

theorem split_perm {β : Type} (s : String) (els : List String) (hs : s ∉ els) (g : String → Option (Vec 3 → β))
    (atoms : List (String × Vec 3)) (F : Vec 3 → β) (hF : g s = some F) :
    (((atoms.filter fun a => a.1 == s).map fun a => F a.2) ++
      atoms.filterMap fun a => if a.1 ∈ els then (g a.1).map fun G => G a.2 else none).Perm
    (atoms.filterMap fun a => if a.1 ∈ s :: els then (g a.1).map fun G => G a.2 else none) := by
  induction atoms with
  | nil => simp
  | cons a l ih =>
    by_cases ha : a.1 = s
    · have h1 : a.1 ∉ els := ha ▸ hs
      rw [List.filter_cons_of_pos (by simp [ha]), List.map_cons, List.cons_append, List.filterMap_cons_none (by simp [h1]),
        List.filterMap_cons_some (b := F a.2) (by simp [ha, hF])]
      exact ih.cons _
    · rw [List.filter_cons_of_neg (by simp [ha])]
      by_cases he : a.1 ∈ els
      · cases hg : g a.1 with
        | none =>
          rw [List.filterMap_cons_none (by simp [hg]), List.filterMap_cons_none (by simp [hg])]
          exact ih
        | some G =>
          rw [List.filterMap_cons_some (b := G a.2) (by simp [he, hg]), List.filterMap_cons_some (b := G a.2) (by simp [he, hg])]
          exact List.perm_middle.trans (ih.cons _)
      · rw [List.filterMap_cons_none (by simp [he]), List.filterMap_cons_none (by simp [he, ha])]
        exact ih

theorem nodup_eraseDups (l : List String) : l.eraseDups.Nodup := by
  induction hn : l.length using Nat.strong_induction_on generalizing l with
  | _ m ih =>
    cases l with
    | nil => simp
    | cons a l =>
      rw [List.eraseDups_cons, List.nodup_cons]
      have hle := List.length_filter_le (fun b => !b == a) l
      refine ⟨fun h => ?_, ih _ (by simp at hn; omega) _ rfl⟩
      rw [List.mem_eraseDups, List.mem_filter] at h
      simp at h

/-- C114 (atoms): grouping by element neither loses nor repeats an atom: every atom whose element is asked for and has a table is there once,
with the table of its element. -/
theorem c114_atoms (ecp : List (String × PyscfEcp)) (atoms : List (String × Vec 3)) (elements : List String) :
    (ecpAtoms ecp atoms elements).Perm
      (atoms.filterMap fun a => if a.1 ∈ elements then (ecp.lookup a.1).map fun p => (a.2, p) else none) := by
  have key : ∀ els : List String, els.Nodup → (els.flatMap fun s => match ecp.lookup s with
      | some p => (atoms.filter fun a => a.1 == s).map fun a => (a.2, p)
      | none => []).Perm (atoms.filterMap fun a => if a.1 ∈ els then (ecp.lookup a.1).map fun p => (a.2, p) else none) := by
    intro els
    induction els with
    | nil => intro _; simp
    | cons s els ih =>
      intro hnd
      rw [List.nodup_cons] at hnd
      rw [List.flatMap_cons]
      refine (List.Perm.append_left _ (ih hnd.2)).trans ?_
      cases hl : ecp.lookup s with
      | none =>
        rw [List.nil_append]
        refine List.Perm.of_eq (List.filterMap_congr fun a _ => ?_)
        by_cases ha : a.1 = s
        · simp [ha, hl]
        · simp [ha]
      | some p =>
        have := split_perm s els hnd.1 (fun s => (ecp.lookup s).map fun p x => (x, p)) atoms (fun x => (x, p)) (by simp [hl])
        simp only [Option.map_map, Function.comp_def] at this
        exact this
  unfold ecpAtoms
  have h1 : elements.eraseDups.Nodup := nodup_eraseDups elements
  refine (key _ h1).trans (List.Perm.of_eq (List.filterMap_congr fun a _ => ?_))
  simp [List.mem_eraseDups]

/-! ### Nearest atoms -/

/-- C114 (selection): the nonlocal part keeps `min max_core m` different atoms, and no atom left out is nearer than one kept. -/
theorem c114_nearest {m : ℕ} (maxCore : ℕ) (dist : Fin m → ℝ) :
    (select maxCore dist).Nodup ∧ (select maxCore dist).length = min maxCore m ∧
    (∀ i ∈ select maxCore dist, ∀ j, j ∉ select maxCore dist → dist i ≤ dist j) ∧
    (m ≤ maxCore → ∀ i, i ∈ select maxCore dist) := by
  by_cases h : m ≤ maxCore
  · have hp : (select maxCore dist).Perm (List.finRange m) := by
      unfold select
      rw [List.take_of_length_le (by simp [h])]
      exact List.mergeSort_perm _ _
    have hm : ∀ i, i ∈ select maxCore dist := fun i => hp.mem_iff.mpr (List.mem_finRange i)
    exact ⟨hp.nodup_iff.mpr (List.nodup_finRange m), by rw [hp.length_eq]; simp [h], fun i _ j hj => absurd (hm j) hj, fun _ => hm⟩
  · have : select maxCore dist = Ecp.nearest maxCore dist := by
      unfold select Ecp.nearest
      rw [if_neg h]
    rw [this]
    exact Ecp.Props.c73_nearest maxCore dist

/-! ### Energy -/

/-- The tables list the angular momenta `-1, 0, 1, …` in order, without a gap, the layout the code relies on. -/
def Ordered (p : PyscfEcp) : Prop := ∀ (k : ℕ) (c : ℤ × List (List (ℝ × ℝ))), p.channels[k]? = some c → c.1 = (k : ℤ) - 1

theorem lookup_ordered (cs : List (ℤ × List (List (ℝ × ℝ)))) (j : ℤ) (h : ∀ (k : ℕ) c, cs[k]? = some c → c.1 = (k : ℤ) + j) (k : ℕ) :
    cs.lookup ((k : ℤ) + j) = (cs[k]?).map (·.2) := by
  induction cs generalizing j k with
  | nil => simp
  | cons c cs ih =>
    obtain ⟨l, g⟩ := c
    have h0 : l = j := by simpa using h 0 (l, g) rfl
    subst h0
    rw [List.lookup_cons]
    cases k with
    | zero => simp
    | succ k =>
      have hne : (((k + 1 : ℕ) : ℤ) + l == l) = false := by simp; omega
      rw [hne]
      have := ih (l + 1) (fun i c hc => by
        have := h (i + 1) c (by simpa using hc)
        push_cast at this
        omega) k
      rw [show (((k + 1 : ℕ) : ℤ) + l) = (k : ℤ) + (l + 1) by push_cast; ring]
      simpa using this

theorem selectCore_eq (p : PyscfEcp) (h : Ordered p) (k : ℕ) (r : ℝ) : selectCore p k r = Ecp.Spec.potential p ((k : ℤ) - 1) r := by
  unfold selectCore Ecp.Spec.potential
  rw [show ((k : ℤ) - 1) = (k : ℤ) + (-1) by ring, lookup_ordered p.channels (-1) (fun k c hc => by rw [h k c hc]; ring) k]
  cases p.channels[k]? with
  | none => rfl
  | some c => exact Ecp.Props.radialValue_flatten c.2 r

theorem ecpAtoms_mem (ecp : List (String × PyscfEcp)) (atoms : List (String × Vec 3)) (elements : List String) (a : Vec 3 × PyscfEcp)
    (h : a ∈ ecpAtoms ecp atoms elements) : ∃ s ∈ elements, (s, a.1) ∈ atoms ∧ ecp.lookup s = some a.2 := by
  have := (c114_atoms ecp atoms elements).mem_iff.mp h
  rw [List.mem_filterMap] at this
  obtain ⟨b, hb, h2⟩ := this
  split_ifs at h2 with hs
  cases hl : ecp.lookup b.1 with
  | none => simp [hl] at h2
  | some p =>
    rw [hl] at h2
    simp only [Option.map_some, Option.some.injEq] at h2
    subst h2
    exact ⟨b.1, hs, hb, hl⟩

/-- C114 (energy): the effective core energy of the legacy package is the sum over electrons and atoms of the local potential and, over the
electrons, their nearest atoms and the angular momenta of the tables, of the radial potential times the projection of the wavefunction. -/
theorem c114_energy (id : Option String) (d : ℕ) (hd : exactDegree id = some d) (psi : (Fin n → Vec 3) → ℝ × ℝ) (ecp : List (String × PyscfEcp))
    (atoms : List (String × Vec 3)) (elements : List String) (maxCore : ℕ) (nspins : ℕ × ℕ) (hn : nspins.1 + nspins.2 = n) (r : Fin n → Vec 3)
    (hs : (psi r).1 = 1 ∨ (psi r).1 = -1) (hord : ∀ e ∈ ecp, Ordered e.2) (hne : ∀ e ∈ ecp, ¬ emptyChannel e.2)
    (hl : 2 ≤ maxL ecp) (hl' : maxL ecp ≤ 9) (hpos : ∀ e, ∀ a ∈ atoms, r e ≠ a.2)
    (u1 u2 : Fin n → ℝ) (h0 : ∀ e, 0 ≤ u2 e) (h1 : ∀ e, u2 e ≤ 1) (deg : ℕ) (hdeg : deg + (maxL ecp - 2) ≤ d)
    (hpoly : ∀ e, ∀ a ∈ atoms, PolynomialOnSphere deg (fun u => wf psi (Function.update r e
      (fun k => a.2 k + Geometry.Spec.length (fun k => r e k - a.2 k) * u k)) / wf psi r)) :
    let as := ecpAtoms ecp atoms elements
    let dist := fun (e : Fin n) (a : Fin as.length) => Geometry.Spec.length fun k => r e k - (as.get a).1 k
    ∃ E : ℝ, nonLocalEnergy psi ecp atoms elements id maxCore nspins r (fun e => rotation (u1 e) (u2 e)) = some E ∧
      (E : ℂ) = ∑ e, ∑ a : Fin as.length, (Ecp.Spec.potential (as.get a).2 (-1) (dist e a) : ℂ) +
        ∑ e, ((select maxCore (dist e)).map fun a => ∑ l ∈ Finset.range (maxL ecp - 1),
          (Ecp.Spec.potential (as.get a).2 l (dist e a) : ℂ) * Ecp.Spec.projection (wf psi) r e (as.get a).1 l).sum := by
  intro as dist
  obtain ⟨q, hq, -⟩ := (c114_quadrature id).1 d hd
  have hmem : ∀ a : Fin as.length, ∃ s ∈ elements, (s, (as.get a).1) ∈ atoms ∧ ecp.lookup s = some (as.get a).2 := fun a =>
    ecpAtoms_mem ecp atoms elements _ (List.get_mem _ _)
  have hno : ¬ (maxL ecp < 2 ∨ 9 < maxL ecp ∨ ∃ a ∈ as, emptyChannel a.2) := by
    rintro (h | h | ⟨a, ha, hc⟩)
    · omega
    · omega
    · obtain ⟨s, -, -, h3⟩ := ecpAtoms_mem ecp atoms elements a ha
      exact hne _ (Ecp.Props.lookup_mem ecp s _ h3) hc
  refine ⟨_, by unfold nonLocalEnergy; rw [hq]; dsimp only; rw [if_neg hno], ?_⟩
  have hdist : ∀ (e : Fin n) (a : Fin as.length), (Geometry.norm fun k => r e k - (as.get a).1 k) = dist e a := fun e a =>
    (Ecp.Props.length_eq _).symm
  have ho : ∀ a : Fin as.length, Ordered (as.get a).2 := fun a => by
    obtain ⟨s, -, -, h3⟩ := hmem a
    exact hord _ (Ecp.Props.lookup_mem ecp s _ h3)
  change (((∑ e, ((select maxCore fun a : Fin as.length => Geometry.norm fun k => r e k - (as.get a).1 k).map fun a => ∑ k : Fin (maxL ecp - 1),
        selectCore (as.get a).2 (k + 1) (Geometry.norm fun k => r e k - (as.get a).1 k) *
          (if e.val < nspins.1 + nspins.2 then channelIntegral q psi r e (as.get a).1 (q.rotated (rotation (u1 e) (u2 e))) k else 0)).sum) +
      ∑ e, ∑ a : Fin as.length, selectCore (as.get a).2 0 (Geometry.norm fun k => r e k - (as.get a).1 k) : ℝ) : ℂ) = _
  rw [Complex.ofReal_add, add_comm]
  congr 1
  · rw [Complex.ofReal_sum]
    refine Finset.sum_congr rfl fun e _ => ?_
    rw [Complex.ofReal_sum]
    refine Finset.sum_congr rfl fun a _ => ?_
    rw [selectCore_eq _ (ho a), hdist]
    norm_num
  · rw [Complex.ofReal_sum]
    refine Finset.sum_congr rfl fun e _ => ?_
    rw [← Complex.ofRealHom_eq_coe, map_list_sum, List.map_map]
    have hsel : (select maxCore fun a : Fin as.length => Geometry.norm fun k => r e k - (as.get a).1 k) = select maxCore (dist e) :=
      congrArg _ (funext fun a => hdist e a)
    rw [hsel]
    congr 1
    refine List.map_congr_left fun a _ => ?_
    obtain ⟨s, -, h2, -⟩ := hmem a
    rw [Function.comp_apply, map_sum, Finset.sum_range]
    refine Finset.sum_congr rfl fun k _ => ?_
    have hlt : e.val < nspins.1 + nspins.2 := by rw [hn]; exact e.2
    have hk : (k : ℕ) < maxL ecp - 1 := k.2
    rw [if_pos hlt, selectCore_eq _ (ho a), hdist, map_mul]
    rw [Complex.ofRealHom_eq_coe, Complex.ofRealHom_eq_coe,
      c114_projection id d hd q hq psi r e (as.get a).1 (hpos e _ h2) hs (u1 e) (u2 e) (h0 e) (h1 e) k (by omega) deg (by omega) (hpoly e _ h2)]
    congr 4
    push_cast
    ring

/-- C114 (refusals): an unknown rule, tables without a nonlocal channel, more than eight of them, and a channel without terms raise. -/
theorem c114_refused (psi : (Fin n → Vec 3) → ℝ × ℝ) (ecp : List (String × PyscfEcp)) (atoms : List (String × Vec 3)) (elements : List String)
    (id : Option String) (maxCore : ℕ) (nspins : ℕ × ℕ) (r : Fin n → Vec 3) (R : Fin n → Matrix (Fin 3) (Fin 3) ℝ) :
    (exactDegree id = none → nonLocalEnergy psi ecp atoms elements id maxCore nspins r R = none) ∧
    ((∀ e ∈ ecp, e.2.channels.length ≤ 1) → nonLocalEnergy psi ecp atoms elements id maxCore nspins r R = none) ∧
    ((∃ e ∈ ecp, 9 < e.2.channels.length) → nonLocalEnergy psi ecp atoms elements id maxCore nspins r R = none) ∧
    ((∃ a ∈ atoms, a.1 ∈ elements ∧ ∃ p, ecp.lookup a.1 = some p ∧ ∃ c ∈ p.channels, ∀ g ∈ c.2, g = []) →
      nonLocalEnergy psi ecp atoms elements id maxCore nspins r R = none) := by
  have key : (maxL ecp < 2 ∨ 9 < maxL ecp ∨ (∃ a ∈ ecpAtoms ecp atoms elements, emptyChannel a.2)) →
      nonLocalEnergy psi ecp atoms elements id maxCore nspins r R = none := by
    intro h
    unfold nonLocalEnergy
    cases getRule id with
    | none => rfl
    | some q => dsimp only; rw [if_pos h]
  refine ⟨fun h => ?_, fun h => key (Or.inl ?_), fun ⟨e, he, h⟩ => key (Or.inr (Or.inl ?_)), fun ⟨a, ha, h1, p, h2, c, hc, h3⟩ => key (Or.inr (Or.inr ?_))⟩
  · unfold nonLocalEnergy
    rw [(c114_quadrature id).2 h]
  · refine Nat.lt_succ_of_le (Ecp.Props.foldl_max_le _ 0 1 (by omega) fun x hx => ?_)
    rw [List.mem_map] at hx
    obtain ⟨e, he, rfl⟩ := hx
    exact h e he
  · exact lt_of_lt_of_le h (Ecp.Props.le_foldl_max _ 0 _ (Or.inl (List.mem_map.mpr ⟨e, he, rfl⟩)))
  · refine ⟨(a.2, p), (c114_atoms ecp atoms elements).mem_iff.mpr (List.mem_filterMap.mpr ⟨a, ha, by rw [if_pos h1, h2]; rfl⟩), c, hc, ?_⟩
    exact List.sum_eq_zero fun x hx => by
      rw [List.mem_map] at hx
      obtain ⟨g, hg, rfl⟩ := hx
      rw [h3 g hg]
      rfl

/-- The energy, with the atoms given as functions. -/
noncomputable def core (psi : (Fin n → Vec 3) → ℝ × ℝ) (q : Rule) (l maxCore : ℕ) (nspins : ℕ × ℕ) (r : Fin n → Vec 3)
    (R : Fin n → Matrix (Fin 3) (Fin 3) ℝ) (m : ℕ) (pos : Fin m → Vec 3) (rad : Fin m → ℕ → ℝ → ℝ) : ℝ :=
  (∑ e, ((select maxCore fun a => Geometry.norm fun k => r e k - pos a k).map fun a => ∑ k : Fin (l - 1),
        rad a (k + 1) (Geometry.norm fun k => r e k - pos a k) *
          (if e.val < nspins.1 + nspins.2 then channelIntegral q psi r e (pos a) (q.rotated (R e)) k else 0)).sum) +
      ∑ e, ∑ a, rad a 0 (Geometry.norm fun k => r e k - pos a k)

theorem core_cast (psi : (Fin n → Vec 3) → ℝ × ℝ) (q : Rule) (l maxCore : ℕ) (nspins : ℕ × ℕ) (r : Fin n → Vec 3)
    (R : Fin n → Matrix (Fin 3) (Fin 3) ℝ) (m m' : ℕ) (h : m' = m) (pos : Fin m → Vec 3) (rad : Fin m → ℕ → ℝ → ℝ) (pos' : Fin m' → Vec 3)
    (rad' : Fin m' → ℕ → ℝ → ℝ) (h1 : ∀ a, pos' a = pos (Fin.cast h a)) (h2 : ∀ a, rad' a = rad (Fin.cast h a)) :
    core psi q l maxCore nspins r R m' pos' rad' = core psi q l maxCore nspins r R m pos rad := by
  subst h
  obtain rfl : pos' = pos := funext h1
  obtain rfl : rad' = rad := funext h2
  rfl

theorem nonLocalEnergy_core (psi : (Fin n → Vec 3) → ℝ × ℝ) (ecp : List (String × PyscfEcp)) (atoms : List (String × Vec 3))
    (elements : List String) (id : Option String) (maxCore : ℕ) (nspins : ℕ × ℕ) (r : Fin n → Vec 3) (R : Fin n → Matrix (Fin 3) (Fin 3) ℝ) :
    nonLocalEnergy psi ecp atoms elements id maxCore nspins r R = match getRule id with
      | none => none
      | some q => if maxL ecp < 2 ∨ 9 < maxL ecp ∨ (∃ a ∈ ecpAtoms ecp atoms elements, emptyChannel a.2) then none
        else some (core psi q (maxL ecp) maxCore nspins r R (ecpAtoms ecp atoms elements).length
          (fun a => ((ecpAtoms ecp atoms elements).get a).1) (fun a => selectCore ((ecpAtoms ecp atoms elements).get a).2)) := rfl

/-- New labels for the channels. -/
def relabel (g : ℤ → ℤ) (p : PyscfEcp) : PyscfEcp := ⟨p.core, p.channels.map fun c => (g c.1, c.2)⟩

/-- C114 (limit): the angular momenta written in the tables are never looked at, a channel counts by its position: any relabelling gives the same
energy.  So a table with a gap, or in another order, is evaluated with the wrong projections. -/
theorem c114_labels_ignored (g : ℤ → ℤ) (psi : (Fin n → Vec 3) → ℝ × ℝ) (ecp : List (String × PyscfEcp)) (atoms : List (String × Vec 3))
    (elements : List String) (id : Option String) (maxCore : ℕ) (nspins : ℕ × ℕ) (r : Fin n → Vec 3) (R : Fin n → Matrix (Fin 3) (Fin 3) ℝ) :
    nonLocalEnergy psi (ecp.map fun e => (e.1, relabel g e.2)) atoms elements id maxCore nspins r R =
      nonLocalEnergy psi ecp atoms elements id maxCore nspins r R := by
  have hsel : ∀ (p : PyscfEcp), selectCore (relabel g p) = selectCore p := by
    intro p
    funext l d
    unfold selectCore relabel
    rw [List.getElem?_map]
    cases p.channels[l]? <;> rfl
  have hmax : maxL (ecp.map fun e => (e.1, relabel g e.2)) = maxL ecp := by
    unfold maxL
    rw [List.map_map]
    congr 1
    refine List.map_congr_left fun e _ => ?_
    simp [relabel]
  have hlook : ∀ s, (ecp.map fun e => (e.1, relabel g e.2)).lookup s = (ecp.lookup s).map (relabel g) := by
    intro s
    clear hmax
    induction ecp with
    | nil => rfl
    | cons e l ih =>
      rw [List.map_cons, List.lookup_cons, List.lookup_cons]
      split
      · rfl
      · exact ih
  have hat : ecpAtoms (ecp.map fun e => (e.1, relabel g e.2)) atoms elements = (ecpAtoms ecp atoms elements).map fun a => (a.1, relabel g a.2) := by
    unfold ecpAtoms
    rw [List.map_flatMap]
    refine List.flatMap_congr fun s _ => ?_
    rw [hlook]
    cases ecp.lookup s <;> simp
  have hemp : ∀ p, emptyChannel (relabel g p) ↔ emptyChannel p := by
    intro p
    unfold emptyChannel relabel
    constructor
    · rintro ⟨c, hc, h⟩
      rw [List.mem_map] at hc
      obtain ⟨b, hb, rfl⟩ := hc
      exact ⟨b, hb, h⟩
    · rintro ⟨c, hc, h⟩
      exact ⟨_, List.mem_map_of_mem hc, h⟩
  rw [nonLocalEnergy_core, nonLocalEnergy_core]
  cases getRule id with
  | none => rfl
  | some q =>
    dsimp only
    rw [hmax, hat]
    by_cases hc : maxL ecp < 2 ∨ 9 < maxL ecp ∨ ∃ a ∈ ecpAtoms ecp atoms elements, emptyChannel a.2
    · rw [if_pos hc, if_pos]
      rcases hc with h | h | ⟨a, ha, h⟩
      · exact Or.inl h
      · exact Or.inr (Or.inl h)
      · exact Or.inr (Or.inr ⟨_, List.mem_map_of_mem ha, (hemp _).mpr h⟩)
    · rw [if_neg hc, if_neg]
      · refine congrArg some ?_
        refine core_cast psi q (maxL ecp) maxCore nspins r R _ _ (by simp) (fun a => ((ecpAtoms ecp atoms elements).get a).1)
          (fun a => selectCore ((ecpAtoms ecp atoms elements).get a).2) _ _ (fun a => ?_) (fun a => ?_)
        · simp
        · simp [hsel]
      · rintro (h | h | ⟨a, ha, h⟩)
        · exact hc (Or.inl h)
        · exact hc (Or.inr (Or.inl h))
        · rw [List.mem_map] at ha
          obtain ⟨b, hb, rfl⟩ := ha
          exact hc (Or.inr (Or.inr ⟨b, hb, (hemp _).mp h⟩))

/-! ### Examples -/

/-- A table in order, with two nonlocal channels. -/
def exTable : PyscfEcp := ⟨2, [(-1, [[], [(1, 4)]]), (0, [[], [], [(2, 3)]]), (1, [[], [], [(1, 1)]])]⟩

example : Ordered exTable ∧ ¬ emptyChannel exTable ∧ maxL [("C", exTable)] = 3 := by
  refine ⟨fun k c hc => ?_, ?_, by decide⟩
  · match k with
    | 0 => simp [exTable] at hc; simp [← hc]
    | 1 => simp [exTable] at hc; simp [← hc]
    | 2 => simp [exTable] at hc; simp [← hc]
    | k + 3 => simp [exTable] at hc
  · simp [emptyChannel, exTable]

/-- A constant wavefunction is a polynomial of degree 0 on every sphere: all hypotheses are met for two electrons and a carbon atom. -/
example (u1 : Fin 2 → ℝ) : ∃ E : ℝ, nonLocalEnergy (fun _ : Fin 2 → Vec 3 => (-1, 0)) [("C", exTable)] [("C", 0), ("H", fun _ => 1)] ["C", "C"] none 4 (1, 1)
    (fun e => if e = 0 then ![1, 0, 0] else ![0, 2, 0]) (fun e => rotation (u1 e) (1 / 2)) = some E := by
  have ho : Ordered exTable ∧ ¬ emptyChannel exTable := by
    refine ⟨fun k c hc => ?_, ?_⟩
    · match k with
      | 0 => simp [exTable] at hc; simp [← hc]
      | 1 => simp [exTable] at hc; simp [← hc]
      | 2 => simp [exTable] at hc; simp [← hc]
      | k + 3 => simp [exTable] at hc
    · simp [emptyChannel, exTable]
  have hm : maxL [("C", exTable)] = 3 := by decide
  obtain ⟨E, hE, -⟩ := c114_energy none 5 rfl (fun _ : Fin 2 → Vec 3 => (-1, 0)) [("C", exTable)] [("C", 0), ("H", fun _ => 1)] ["C", "C"] 4 (1, 1) rfl
    (fun e => if e = 0 then ![1, 0, 0] else ![0, 2, 0]) (Or.inr rfl) (by simpa using ho.1) (by simpa using ho.2) (by rw [hm]; norm_num) (by rw [hm]; norm_num)
    (by
      intro e a ha
      simp only [List.mem_cons, List.not_mem_nil, or_false] at ha
      rcases ha with rfl | rfl <;> (by_cases he : e = 0 <;> simp only [he, if_true, if_false] <;> intro hc)
      · simpa using congrFun hc 0
      · simpa using congrFun hc 1
      · simpa using congrFun hc 1
      · simpa using congrFun hc 0)
    u1 (fun _ => 1 / 2) (fun _ => by norm_num) (fun _ => by norm_num) 0 (by rw [hm]; norm_num)
    (fun e a _ => ⟨1, by simp, fun u _ => by simp [wf]⟩)
  exact ⟨E, hE⟩

end Jaqmc.LegacyPp.Props
