import Verif.Props.SolidEnergy
/-!
C112, continued: electrons, potential, routing, the total energy and the boundary conditions.
-/
namespace Jaqmc.SolidEnergy.Props
open Jaqmc.SolidEnergy Jaqmc.SolidEnergy.Spec Jaqmc.Geometry Jaqmc.Geometry.Spec Jaqmc.Ecp Jaqmc.Supercell Matrix
open Jaqmc.MolEnergy (Tables Pp Atom mkAtom ecpCoefficients phElements flatten unflatten)
open Jaqmc.MolEnergy.Spec (treatment Treatment)
open scoped Classical Topology

variable {n : ℕ}

/-- The atoms of the primitive cell as a molecule. -/
def asMol (c : Config) : MolEnergy.Config :=
  ⟨false, c.atoms.map fun a => ⟨a.symbol, Presets.position a.frac c.lattice, a.charge⟩, c.pp⟩

theorem resolve_asMol (T : Tables) (c : Config) : (asMol c).resolve T = c.resolve T := by
  unfold MolEnergy.Config.resolve Config.resolve asMol
  rw [List.mapM_map]
  rfl

theorem sum_replicate_flatten (q : ℕ) (l : List ℤ) : ((List.replicate q l).flatten).sum = q * l.sum := by
  rw [List.sum_flatten, List.map_replicate, List.sum_replicate, nsmul_eq_mul]

/-- C112 (electrons): an accepted crystal has as many electrons as its charges and the total charge say, `2 s_z` more up than down per
primitive cell, so the charge of the simulation cell is the number of primitive cells times the given total charge. -/
theorem c112_electrons (c : Config) (atoms : List Atom) (hacc : c.accepted atoms) (hA : IsUnit c.lattice.det) (h : c.supercell.det ≠ 0)
    (hb : |c.supercell.det| < 100000) (hcol : ∀ j, ∃ i, 0 < c.supercell i j) :
    0 ≤ (c.nspins atoms).1 ∧ 0 ≤ (c.nspins atoms).2 ∧
    (c.nspins atoms).1 - (c.nspins atoms).2 = scale c.supercell * c.imbalance ∧
    (c.charges atoms).sum - ((c.nspins atoms).1 + (c.nspins atoms).2) = scale c.supercell * c.totalCharge ∧
    (c.charges atoms).sum = scale c.supercell * (atoms.map (·.charge)).sum := by
  obtain ⟨-, hl, -⟩ := Supercell.Props.c36_tiling_partial c.lattice hA c.supercell h hb hcol
  obtain ⟨-, -, h1, h2, h3⟩ := hacc
  have hs : (c.charges atoms).sum = scale c.supercell * (atoms.map (·.charge)).sum := by
    unfold Config.charges
    rw [sum_replicate_flatten, hl]
  have hab := abs_le.mp h2
  unfold Config.nspins Config.electronSpins
  dsimp only at h1 h2 h3 hab ⊢
  generalize (atoms.map (·.charge)).sum = Z at *
  rw [hs]
  have hu : 0 ≤ (Z - c.totalCharge + c.imbalance) / 2 := by omega
  have hd : 0 ≤ (Z - c.totalCharge - c.imbalance) / 2 := by omega
  have e1 : (Z - c.totalCharge + c.imbalance) / 2 - (Z - c.totalCharge - c.imbalance) / 2 = c.imbalance := by omega
  have e2 : (Z - c.totalCharge + c.imbalance) / 2 + (Z - c.totalCharge - c.imbalance) / 2 = Z - c.totalCharge := by omega
  refine ⟨mul_nonneg hu (Int.natCast_nonneg _), mul_nonneg hd (Int.natCast_nonneg _), ?_, ?_, rfl⟩
  · rw [← sub_mul, e1]; ring
  · rw [← add_mul, e2]; ring

theorem cell_unit (c : Config) (hA : IsUnit c.lattice.det) (h : c.supercell.det ≠ 0) : IsUnit c.cell.det := by
  unfold Config.cell supercellLattice
  rw [Matrix.det_mul]
  refine IsUnit.mul ?_ hA
  rw [isUnit_iff_ne_zero]
  have : (Supercell.real c.supercell).det = ((c.supercell.det : ℤ) : ℝ) := by
    have := (RingHom.map_det (Int.castRingHom ℝ) c.supercell).symm
    simpa [Supercell.real, Matrix.map] using this
  rw [this]
  exact_mod_cast h

theorem sum_charges (m : ℕ) (charges : List ℤ) (hm : charges.length = m) :
    ∑ i, particleCharges n charges m i = (charges.sum : ℝ) - n := by
  unfold particleCharges
  rw [Fin.sum_univ_add]
  simp only [Fin.append_left, Fin.append_right]
  subst hm
  have : ∑ a : Fin charges.length, ((charges.getD a 0 : ℤ) : ℝ) = (charges.sum : ℝ) := by
    conv_rhs => rw [← List.ofFn_get charges, List.sum_ofFn]
    push_cast
    refine Finset.sum_congr rfl fun a _ => ?_
    simp [List.getD]
  rw [this]
  simp
  ring

/-- C112 (the potential): the potential energy is the Ewald formula (C34, C35, C58) for the electrons with charge -1 and the atoms of
the simulation cell with their charges after core removal; for a walker with the right number of electrons, the last term is that of
a cell with net charge `scale * total_charge`, zero for a neutral crystal. -/
theorem c112_potential (erfc : ℝ → ℝ) (c : Config) (atoms : List Atom) (hacc : c.accepted atoms) (hA : IsUnit c.lattice.det) (h : c.supercell.det ≠ 0)
    (hb : |c.supercell.det| < 100000) (hcol : ∀ j, ∃ i, 0 < c.supercell i j) (hn : (n : ℤ) = (c.nspins atoms).1 + (c.nspins atoms).2)
    (x : Fin n → Vec 3)
    (hr : ∀ i j m, m ∈ Ewald.Spec.box 1 → ¬ (m = 0 ∧ i = j) → 1e-7 ≤ length (fun k =>
      (minImage c.cell (particles x (c.coords atoms) i) (particles x (c.coords atoms) j)).1 k + translation c.cell m k)) :
    let X := particles x (c.coords atoms)
    let q := particleCharges n (c.charges atoms) (c.coords atoms).length
    potential erfc c atoms x = Ewald.Spec.real erfc c.cell (Ewald.alpha c.cell) 1 (fun i j => (minImage c.cell (X i) (X j)).1) q
      + Ewald.Spec.recip c.cell c.cell.det (Ewald.alpha c.cell) 200 X q - Ewald.alpha c.cell / Real.sqrt Real.pi * (n + ∑ i : Fin (c.coords atoms).length,
        (((c.charges atoms).getD i 0 : ℤ) : ℝ) ^ 2)
      - Real.pi / (2 * c.cell.det * Ewald.alpha c.cell ^ 2) * (scale c.supercell * c.totalCharge : ℝ) ^ 2 := by
  intro X q
  have hcell := cell_unit c hA h
  obtain ⟨h1, h2, -, -⟩ := c112_aligned c atoms hA h hb hcol
  obtain ⟨-, -, -, hq, -⟩ := c112_electrons c atoms hacc hA h hb hcol
  unfold potential
  rw [Ewald.Props.c58_formula erfc c.cell hcell 200 1 _ _ hr, sum_charges _ _ (h2.trans h1.symm)]
  have e : ((c.charges atoms).sum : ℝ) - n = scale c.supercell * c.totalCharge := by
    have : ((c.charges atoms).sum : ℤ) - n = scale c.supercell * c.totalCharge := by rw [hn]; exact hq
    exact_mod_cast congrArg (Int.cast : ℤ → ℝ) this
  have e2 : ∑ i, particleCharges n (c.charges atoms) (c.coords atoms).length i ^ 2 = n + ∑ i : Fin (c.coords atoms).length,
        (((c.charges atoms).getD i 0 : ℤ) : ℝ) ^ 2 := by
    unfold particleCharges
    rw [Fin.sum_univ_add]
    simp only [Fin.append_left, Fin.append_right]
    simp
  rw [e, e2]

/-- C112 (routing): the atoms of the simulation cell with an effective core potential are exactly the copies of the primitive atoms the
user asked one for, each with the table of its own element. -/
theorem c112_routing (T : Tables) (c : Config) (atoms : List Atom) (hr : c.resolve T = some atoms) (w : Walker n) :
    (∀ (i : ℕ) (p : PyscfEcp), (i, p) ∈ (c.ecpEstimator w (ecpCoefficients T atoms) (c.symbols atoms)).atoms ↔
      i < scale c.supercell * atoms.length ∧ ∃ a, atoms[i % atoms.length]? = some a ∧ treatment T.loadEcp a.pp a.symbol = some (.effectiveCore p)) ∧
    (ecpCoefficients T atoms = [] ↔ ∀ a ∈ atoms, ∀ p, treatment T.loadEcp a.pp a.symbol ≠ some (.effectiveCore p)) ∧
    (phElements atoms = [] ↔ ∀ a ∈ atoms, treatment T.loadEcp a.pp a.symbol ≠ some .pseudoHamiltonian) := by
  have hr' := (resolve_asMol T c).trans hr
  let w' : MolEnergy.Walker 0 := ⟨0, fun _ => 0, fun _ => 1, .scan, 1, ⟨[], []⟩, fun _ => 1, 0, fun _ => (fun _ => 0, fun _ => 0)⟩
  obtain ⟨-, r2, r3, -⟩ := MolEnergy.Props.c109_routing T (asMol c) atoms hr' w'
  have hq := fun a ha => (MolEnergy.Props.resolve_pp T (asMol c) atoms hr' a ha).1
  have hlk := MolEnergy.Props.coefficients_lookup T (asMol c).pp.of atoms hq
  refine ⟨fun i p => ?_, r2, r3⟩
  have hsym : ∀ (i : ℕ) (s : String), (c.symbols atoms)[i]? = some s ↔ i < scale c.supercell * atoms.length ∧
      ∃ a, atoms[i % atoms.length]? = some a ∧ a.symbol = s := by
    intro i s
    by_cases hi : i < scale c.supercell * atoms.length
    · have hN : 0 < atoms.length := by
        rcases Nat.eq_zero_or_pos atoms.length with h0 | h0
        · rw [h0] at hi; omega
        · exact h0
      have ha : i % atoms.length < atoms.length := Nat.mod_lt _ hN
      have hp : i / atoms.length < scale c.supercell := Nat.div_lt_of_lt_mul (by rw [mul_comm]; exact hi)
      have hi' : i / atoms.length * atoms.length + i % atoms.length = i := by rw [mul_comm]; exact Nat.div_add_mod _ _
      have := tile_get (atoms.map (·.symbol)) (scale c.supercell) (i / atoms.length) (i % atoms.length) hp (by simpa using ha)
      rw [List.length_map, hi'] at this
      unfold Config.symbols
      rw [this, List.getElem?_map, List.getElem?_eq_getElem ha]
      simp [hi]
    · have : (c.symbols atoms)[i]? = none := by
        apply List.getElem?_eq_none
        unfold Config.symbols
        rw [tile_length, List.length_map]
        omega
      rw [this]
      simp [hi]
  unfold Estimator.atoms ecpAtoms Config.ecpEstimator
  rw [List.mem_filterMap]
  constructor
  · rintro ⟨⟨s, j⟩, h1, h2⟩
    obtain ⟨p', hp, he⟩ := Option.map_eq_some_iff.mp h2
    obtain ⟨rfl, rfl⟩ := Prod.mk.injEq .. ▸ he
    have hs := (hsym j s).mp (List.mem_zipIdx_iff_getElem?.mp h1)
    obtain ⟨hlt, a, ha, rfl⟩ := hs
    refine ⟨hlt, a, ha, ?_⟩
    rw [hlk] at hp
    split at hp
    · rw [MolEnergy.Props.tableOf_iff] at hp
      rw [hq a (List.mem_iff_getElem?.mpr ⟨_, ha⟩)]
      exact hp
    · cases hp
  · rintro ⟨hlt, a, ha, ht⟩
    have hmem : a ∈ atoms := List.mem_iff_getElem?.mpr ⟨_, ha⟩
    refine ⟨(a.symbol, i), ?_, ?_⟩
    · rw [List.mem_zipIdx_iff_getElem?]
      exact (hsym i _).mpr ⟨hlt, a, ha, rfl⟩
    · dsimp only
      rw [hlk, if_pos ⟨a, hmem, rfl⟩]
      rw [hq a hmem] at ht
      rw [(MolEnergy.Props.tableOf_iff T (asMol c).pp.of a.symbol p).mpr ht]
      rfl

/-- The position the ECP estimator uses for atom `i` of the simulation cell is the one of `coords`. -/
theorem atomPos_get (coords : List (Vec 3)) (i : ℕ) (h : i < coords.length) : atomPos coords i = coords[i] := by
  unfold atomPos
  rw [show min i (coords.length - 1) = i by omega]
  simp [List.getD, List.getElem?_eq_getElem h]

/-! ### The energy -/

theorem value_phase (w : Walker n) (y : Fin n → Fin 3 → ℝ) : Ecp.Spec.value (w.phase y) = psi (w.logpsi y) := by
  unfold Walker.phase Ecp.Spec.value Walker.f
  cases h : w.logpsi y using WithBot.recBotCoe with
  | bot => simp [psi]
  | coe z =>
    rw [if_neg WithBot.coe_ne_bot]
    simp only [WithBot.unbotD_coe]
    rw [← Complex.exp_add]
    conv_rhs => unfold psi; rw [← Complex.re_add_im z]
    congr 1
    ring

theorem laplacian_flatC (F : (Fin n → Fin 3 → ℝ) → ℂ) (x : Fin n → Fin 3 → ℝ) :
    Kinetic.Spec.laplacian (fun y => F (unflatten y)) (flatten x) = laplacian F x := by
  unfold Kinetic.Spec.laplacian laplacian
  rw [← Equiv.sum_comp finProdFinEquiv, Fintype.sum_prod_type]
  refine Finset.sum_congr rfl fun i _ => Finset.sum_congr rfl fun k _ => ?_
  unfold Kinetic.Spec.second
  have h1 : flatten x (finProdFinEquiv (i, k)) = x i k := by simp [flatten]
  simp only [MolEnergy.Props.unflatten_update, h1]

/-- The kinetic energy, on the electrons. -/
theorem kineticC_eq (w : Walker n) (hf : ContDiffAt ℝ 2 w.f w.x) (hb : ∀ᶠ y in 𝓝 w.x, w.logpsi y ≠ ⊥) :
    Kinetic.standardC w.mode (fun y => w.f (unflatten y)) (flatten w.x) * psi (w.logpsi w.x) =
      -(1 / 2) * laplacian (fun y => psi (w.logpsi y)) w.x := by
  have hf' : ContDiffAt ℝ 2 (fun y => w.f (unflatten y)) (flatten w.x) := by
    refine ContDiffAt.comp (g := w.f) (f := unflatten) (flatten w.x) ?_ MolEnergy.Props.unflatten_contDiff.contDiffAt
    rw [MolEnergy.Props.unflatten_flatten]
    exact hf
  have hv : ∀ y, w.logpsi y ≠ ⊥ → psi (w.logpsi y) = Complex.exp (w.f y) := by
    intro y hy
    unfold Walker.f
    cases h : w.logpsi y using WithBot.recBotCoe with
    | bot => exact absurd h hy
    | coe z => rfl
  have hev : ∀ᶠ y in 𝓝 (flatten w.x), psi (w.logpsi (unflatten y)) = 1 * Complex.exp (w.f (unflatten y)) := by
    have hc : Filter.Tendsto (unflatten : (Fin (n * 3) → ℝ) → Fin n → Fin 3 → ℝ) (𝓝 (flatten w.x)) (𝓝 w.x) := by
      have := (MolEnergy.Props.unflatten_contDiff (n := n)).continuous.continuousAt (x := flatten w.x)
      unfold ContinuousAt at this
      rwa [MolEnergy.Props.unflatten_flatten] at this
    filter_upwards [hc.eventually hb] with y hy
    rw [one_mul, hv _ hy]
  have h1 := Kinetic.Props.laplacian_psi Complex.exp Complex.hasDerivAt_exp 1 hf' hev
  rw [laplacian_flatC (fun y => psi (w.logpsi y)), MolEnergy.Props.unflatten_flatten] at h1
  rw [h1, Kinetic.Props.standardC_value w.mode _ _ hf']
  ring

theorem run_eq (erfc : ℝ → ℝ) (T : Tables) (c : Config) (atoms : List Atom) (w : Walker n) (E : ℂ)
    (h : runEstimators erfc c atoms w (c.makeEstimators T atoms) [] = some E) :
    ∃ e : ℂ, E = (potential erfc c atoms w.x : ℂ) + Kinetic.standardC w.mode (fun y => w.f (unflatten y)) (flatten w.x) + e ∧
      (ecpCoefficients T atoms = [] → e = 0) ∧
      (ecpCoefficients T atoms ≠ [] → c.ecpEnergy atoms w (ecpCoefficients T atoms) (c.symbols atoms) = some e) := by
  unfold Config.makeEstimators at h
  dsimp only at h
  have hd : ∀ (a b d : ℂ), Stats.Dict.update [] [("energy:potential", a)] = [("energy:potential", a)] ∧
      Stats.Dict.update [("energy:potential", a)] [("energy:kinetic", b)] = [("energy:potential", a), ("energy:kinetic", b)] ∧
      Stats.Dict.update [("energy:potential", a), ("energy:kinetic", b)] [("energy:ecp", d)] =
        [("energy:potential", a), ("energy:kinetic", b), ("energy:ecp", d)] := by
    intro a b d
    refine ⟨?_, ?_, ?_⟩ <;> simp [Stats.Dict.update, Stats.Dict.set]
  by_cases hc : ecpCoefficients T atoms = []
  · rw [if_pos hc] at h
    simp only [List.append_nil, List.cons_append, List.nil_append, runEstimators, Est.eval, (hd _ 0 0).1, (hd _ _ 0).2.1, List.map_cons,
      List.map_nil, (MolEnergy.Props.sum4 _ _ 0 0).1] at h
    refine ⟨0, ?_, fun _ => rfl, fun h => absurd hc h⟩
    rw [← Option.some.inj h]; ring
  · rw [if_neg hc] at h
    cases he : c.ecpEnergy atoms w (ecpCoefficients T atoms) (c.symbols atoms) with
    | none =>
      simp only [List.cons_append, List.nil_append, runEstimators, Est.eval, he, Option.map_none] at h
      cases h
    | some e =>
      simp only [List.cons_append, List.nil_append, runEstimators, Est.eval, he, Option.map_some, (hd _ 0 0).1, (hd _ _ 0).2.1,
        (hd _ _ e).2.2, List.map_cons, List.map_nil, (MolEnergy.Props.sum4 _ _ 0 e).2.2.1] at h
      refine ⟨e, ?_, fun h => absurd h hc, fun _ => rfl⟩
      rw [← Option.some.inj h]

/-- C112: the total energy of a walker of a crystal, times `ψ`, is the Hamiltonian applied to `ψ`: `-½ Δψ`, plus the Ewald energy, plus the
energy of the effective core potentials (C73) of the atoms of the simulation cell, which is there exactly when an atom has one. -/
theorem c112_energy (erfc : ℝ → ℝ) (T : Tables) (c : Config) (atoms : List Atom) (hr : c.resolve T = some atoms) (w : Walker n)
    (hf : ContDiffAt ℝ 2 w.f w.x) (hb : ∀ᶠ y in 𝓝 w.x, w.logpsi y ≠ ⊥) (E : ℂ) (hE : totalEnergy erfc T c w = some E) :
    ∃ ecp : ℂ,
      ((∀ a ∈ atoms, ∀ p, treatment T.loadEcp a.pp a.symbol ≠ some (.effectiveCore p)) → ecp = 0) ∧
      ((∃ a ∈ atoms, ∃ p, treatment T.loadEcp a.pp a.symbol = some (.effectiveCore p)) →
        (c.ecpEstimator w (ecpCoefficients T atoms) (c.symbols atoms)).energy (fun p a => (minImage c.cell p a).1) w.phase w.x
          (atomPos (c.coords atoms)) w.R = some ecp) ∧
      E * psi (w.logpsi w.x) = -(1 / 2) * laplacian (fun y => psi (w.logpsi y)) w.x + (potential erfc c atoms w.x : ℂ) * psi (w.logpsi w.x)
        + ecp * psi (w.logpsi w.x) := by
  obtain ⟨-, hr2, -⟩ := c112_routing T c atoms hr w
  unfold totalEnergy at hE
  rw [hr] at hE
  dsimp only at hE
  split at hE
  · cases hE
  split at hE
  · cases hE
  obtain ⟨e, rfl, h1, h2⟩ := run_eq erfc T c atoms w E hE
  refine ⟨e, fun h => h1 (hr2.mpr h), fun ⟨a, ha, q, hq⟩ => h2 fun h0 => hr2.mp h0 a ha q hq, ?_⟩
  rw [← kineticC_eq w hf hb]
  ring

/-- C112 (no pseudo-Hamiltonian): a crystal with an atom to be treated by a pseudo-Hamiltonian, an unknown potential or an element the
potential does not have is refused rather than run without the potential; so is one whose numbers of electrons do not fit. -/
theorem c112_refused (erfc : ℝ → ℝ) (T : Tables) (c : Config) (w : Walker n) :
    (∀ g ∈ c.atoms, c.pp.of g.symbol = some "ph" → totalEnergy erfc T c w = none) ∧
    (∀ g ∈ c.atoms, ∀ name, c.pp.of g.symbol = some name → name ≠ "ph" → T.loadEcp name g.symbol = none → totalEnergy erfc T c w = none) ∧
    (∀ atoms, c.resolve T = some atoms → ¬ c.accepted atoms → totalEnergy erfc T c w = none) := by
  have key : ∀ g ∈ c.atoms, (∀ atoms, c.resolve T = some atoms → ∀ a ∈ atoms, a.symbol = g.symbol → a.pp = c.pp.of g.symbol → ∀ i : ℕ,
      c.atoms[i]? = some g → atoms[i]? = some a → totalEnergy erfc T c w = none) → totalEnergy erfc T c w = none := by
    intro g hg hk
    cases hr : c.resolve T with
    | none => unfold totalEnergy; rw [hr]
    | some atoms =>
      obtain ⟨i, hi⟩ := List.mem_iff_getElem?.mp hg
      obtain ⟨m1, m2⟩ := MolEnergy.Props.mapM_get _ _ _ hr
      have hlt : i < atoms.length := by
        rw [m1]
        exact (List.getElem?_eq_some_iff.mp hi).1
      obtain ⟨q1, q2⟩ := MolEnergy.Props.c109_atoms T (asMol c) atoms ((resolve_asMol T c).trans hr)
      have hga : (asMol c).atoms[i]? = some ⟨g.symbol, Presets.position g.frac c.lattice, g.charge⟩ := by
        unfold asMol
        simp [hi]
      obtain ⟨s1, s2, -⟩ := q2 i _ _ hga (List.getElem?_eq_getElem hlt)
      exact hk atoms hr _ (List.getElem_mem hlt) s1 s2 i hi (List.getElem?_eq_getElem hlt)
  refine ⟨fun g hg hp => key g hg fun atoms hr a ha hs hpp i hi hai => ?_, fun g hg name hp hne hl => key g hg fun atoms hr a ha hs hpp i hi hai => ?_,
    fun atoms hr hna => ?_⟩
  · unfold totalEnergy
    rw [hr]
    dsimp only
    split
    · rfl
    · rw [if_pos]
      intro h0
      have : a.symbol ∈ phElements atoms := by
        unfold phElements
        refine List.mem_map.mpr ⟨a, List.mem_filter.mpr ⟨ha, ?_⟩, rfl⟩
        rw [hpp, hp]
        rfl
      rw [h0] at this
      cases this
  · exfalso
    have := (MolEnergy.Props.resolve_pp T (asMol c) atoms ((resolve_asMol T c).trans hr) a ha).2
    obtain ⟨t, ht⟩ := this
    rw [hpp, hp, hs] at ht
    unfold treatment at ht
    split at ht
    · rename_i h0; cases h0
    · rename_i h0; exact hne (Option.some.inj h0)
    · rename_i nm _ h0
      obtain rfl := Option.some.inj h0
      rw [hl] at ht
      cases ht
  · unfold totalEnergy
    rw [hr]
    dsimp only
    rw [if_pos hna]

/-! ### Boundary conditions -/

/-- C112 (k-points): with a symmetric supercell matrix, every k-point of the reference calculation is one for which a plane wave has the
twist the user asked for: `k·R = 2π Σ m_j t_j` modulo `2π` for the simulation-cell vector `R` with coefficients `m`. -/
theorem c112_kpts_partial (c : Config) (hA : IsUnit c.lattice.det) (hsym : c.supercellᵀ = c.supercell) (h : c.supercell.det ≠ 0)
    (hb : |c.supercell.det| < 100000) (k : Vec 3) (hk : k ∈ c.kpts) (m : Fin 3 → ℤ) :
    ∃ z : ℤ, Wf.Props.kdot k (translation c.cell m) = 2 * Real.pi * ∑ j, (m j : ℝ) * c.twist j + z * (2 * Real.pi) := by
  obtain ⟨-, hw, -⟩ := Supercell.Props.c37_symmetric_partial c.lattice hA c.supercell hsym h hb
  unfold Config.kpts at hk
  obtain ⟨k0, hk0, rfl⟩ := List.mem_map.mp hk
  obtain ⟨z, hz⟩ := hw k0 hk0 m
  have h2 := Supercell.Props.dot_reciprocal (cell_unit c hA h) c.twist (fun i => (m i : ℝ))
  refine ⟨z, ?_⟩
  have e : ∀ a : Vec 3, Wf.Props.kdot a (translation c.cell m) = dot a (translation c.cell m) := by
    intro a
    unfold Wf.Props.kdot dot
    rw [Fin.sum_univ_three]
    ring
  rw [e]
  have e3 : dot (fun j => k0 j + (c.twist ᵥ* reciprocal c.cell) j) (translation c.cell m) =
      dot k0 (translation c.cell m) + dot (c.twist ᵥ* reciprocal c.cell) (translation c.cell m) := by
    unfold dot
    ring
  have e4 : translation c.cell m = (fun i => (m i : ℝ)) ᵥ* c.cell := rfl
  rw [e3, show dot k0 (translation c.cell m) = 2 * Real.pi * z from hz, e4, h2]
  have : ∑ j, c.twist j * (m j : ℝ) = ∑ j, (m j : ℝ) * c.twist j := Finset.sum_congr rfl fun j _ => mul_comm _ _
  rw [this]
  ring

/-- C112 (boundary conditions): the network with those k-points, in the simulation cell, satisfies exactly the twisted boundary conditions that
the effective core estimator is given, so its ratios at points moved across the cell are right (C73). -/
theorem c112_bloch_partial {nu nd na : ℕ} (c : Config) (hA : IsUnit c.lattice.det) (hsym : c.supercellᵀ = c.supercell) (h : c.supercell.det ≠ 0)
    (hb : |c.supercell.det| < 100000) (W : Wf.Solid) (hsim : W.cell.sim = c.cell) (hprim : W.cell.prim = c.lattice)
    (hk : ∀ j : Fin (nu + nd), W.klist j ∈ c.kpts) (at' : Fin na → Vec 3) (w : Walker (nu + nd))
    (hw : ∀ y, w.logpsi y = (W.call y at').logpsi.getD ⊥) (coeffs : List (String × PyscfEcp)) (symbols : List String) :
    Ecp.Spec.Satisfies (c.ecpEstimator w coeffs symbols).boundary (fun y => Ecp.Spec.value (w.phase y)) := by
  intro L hL
  obtain rfl : c.cell = L := Option.some.inj hL
  refine ⟨cell_unit c hA h, fun r e m => ?_⟩
  have hS : W.cell.sim = (c.supercell.map (fun z : ℤ => (z : ℝ))) * W.cell.prim := by
    rw [hsim, hprim]
    rfl
  have := Wf.Props.c65_twist W (hprim ▸ hA) (hsim ▸ cell_unit c hA h) c.supercell hS e m (2 * Real.pi * ∑ j, (m j : ℝ) * c.twist j)
    (fun j => by rw [hsim]; exact c112_kpts_partial c hA hsym h hb _ (hk j) m) r at'
  have hv := this.value
  rw [hsim] at hv
  have hshift : Function.update r e (fun k => r e k + translation c.cell m k) = Wf.Spec.shiftOne e (translation c.cell m) r := by
    funext i k
    unfold Wf.Spec.shiftOne
    by_cases hi : i = e
    · subst hi; simp
    · simp [hi]
  have hpsi : ∀ y, psi (w.logpsi y) = (Wf.Spec.valueC (W.call y at').logpsi).getD 0 := by
    intro y
    rw [hw]
    cases h0 : (W.call y at').logpsi with
    | none => rfl
    | some z => cases z using WithBot.recBotCoe <;> rfl
  dsimp only
  rw [value_phase, value_phase, hpsi, hpsi, hshift, hv]
  have hexp : Complex.exp (Complex.I * ((2 * Real.pi * ∑ j, (m j : ℝ) * c.twist j : ℝ) : ℂ)) =
      Complex.exp (2 * Real.pi * Complex.I * ∑ k, (m k : ℂ) * (((c.ecpEstimator w coeffs symbols).boundary.twist.getD 0 k : ℝ) : ℂ)) := by
    congr 1
    push_cast
    unfold Config.ecpEstimator
    simp only [Option.getD_some]
    ring
  rw [hexp]
  cases Wf.Spec.valueC (W.call r at').logpsi <;> simp

/-! ### A crystal -/

/-- Lithium hydride in a cube of 4 bohr, doubled along the first axis; lithium with the effective core potential of the library. -/
noncomputable def exCrystal : Config :=
  ⟨(4 : ℝ) • 1, [⟨"Li", 0, none⟩, ⟨"H", fun _ => 1 / 2, none⟩], .dict [("Li", "ccecp")], !![2, 0, 0; 0, 1, 0; 0, 0, 1], ![1 / 4, 0, 0], 0, 0⟩

def exTables : Tables := ⟨fun s => if s = "Li" then some 3 else if s = "H" then some 1 else none,
  fun name s => if name = "ccecp" ∧ s = "Li" then some ⟨2, [(-1, [[], [(1, 2)]])]⟩ else none⟩

noncomputable def exAtoms : List Atom := [⟨"Li", Presets.position 0 exCrystal.lattice, 1, 2, some "ccecp"⟩, ⟨"H", Presets.position (fun _ => 1 / 2) exCrystal.lattice, 1, 0, none⟩]

theorem ex_resolve : exCrystal.resolve exTables = some exAtoms := by
  simp [Config.resolve, exCrystal, exAtoms, mkAtom, Pp.of, MolEnergy.coreElectrons, exTables, MolEnergy.PH, List.lookup_cons]

theorem ex_unit : IsUnit exCrystal.lattice.det := by
  unfold exCrystal
  rw [isUnit_iff_ne_zero, Matrix.det_smul, Matrix.det_one]
  norm_num

theorem ex_det : exCrystal.supercell.det = 2 := by
  unfold exCrystal
  simp [Matrix.det_fin_three]

theorem ex_accepted : exCrystal.accepted exAtoms := by
  unfold Config.accepted exCrystal exAtoms
  simp only [List.map_cons, List.map_nil, List.sum_cons, List.sum_nil]
  refine ⟨?_, ?_, by norm_num, by norm_num, by norm_num⟩
  · intro e he
    simp at he
    subst he
    exact ⟨_, List.mem_cons_self, rfl⟩
  · intro a ha
    simp at ha
    rcases ha with rfl | rfl <;> rintro ⟨k, hk | hk⟩ <;> norm_num at hk

/-- Its simulation cell has four atoms and four electrons, two of each spin. -/
example : (exCrystal.coords exAtoms).length = 4 ∧ exCrystal.nspins exAtoms = (2, 2) ∧ (exCrystal.charges exAtoms).sum = 4 := by
  have hs : scale exCrystal.supercell = 2 := by unfold scale; rw [ex_det]; rfl
  have hcol : ∀ j, ∃ i, 0 < exCrystal.supercell i j := fun j => ⟨j, by fin_cases j <;> simp [exCrystal]⟩
  obtain ⟨h1, -⟩ := c112_aligned exCrystal exAtoms ex_unit (by rw [ex_det]; norm_num) (by rw [ex_det]; norm_num) hcol
  obtain ⟨-, -, h3, h4, h5⟩ := c112_electrons exCrystal exAtoms ex_accepted ex_unit (by rw [ex_det]; norm_num) (by rw [ex_det]; norm_num) hcol
  rw [hs] at h1 h3 h4 h5
  have hq : (exAtoms.map (·.charge)).sum = 2 := by simp [exAtoms]
  rw [hq] at h5
  have hi : exCrystal.imbalance = 0 := rfl
  have ht : exCrystal.totalCharge = 0 := rfl
  rw [hi] at h3
  rw [ht, h5] at h4
  refine ⟨h1, ?_, by rw [h5]; norm_num⟩
  ext <;> push_cast at h3 h4 <;> dsimp only <;> omega

/-- The copies of lithium have the potential, those of hydrogen have none. -/
example (w : Walker n) : (2, (⟨2, [(-1, [[], [(1, 2)]])]⟩ : PyscfEcp)) ∈ (exCrystal.ecpEstimator w (ecpCoefficients exTables exAtoms) (exCrystal.symbols exAtoms)).atoms ∧
    ∀ p, (3, p) ∉ (exCrystal.ecpEstimator w (ecpCoefficients exTables exAtoms) (exCrystal.symbols exAtoms)).atoms := by
  have hs : scale exCrystal.supercell = 2 := by unfold scale; rw [ex_det]; rfl
  obtain ⟨h1, -⟩ := c112_routing exTables exCrystal exAtoms ex_resolve w
  refine ⟨(h1 2 _).mpr ⟨by rw [hs]; simp [exAtoms], _, rfl, by simp [treatment, exTables]⟩, fun p hp => ?_⟩
  obtain ⟨-, a, ha, ht⟩ := (h1 3 p).mp hp
  simp [exAtoms] at ha
  subst ha
  simp [treatment] at ht

/-- Every k-point of that crystal has the quarter twist along the first axis. -/
example (k : Vec 3) (hk : k ∈ exCrystal.kpts) : ∃ z : ℤ, Wf.Props.kdot k ![8, 0, 0] = Real.pi / 2 + z * (2 * Real.pi) := by
  have hsym : exCrystal.supercellᵀ = exCrystal.supercell := by
    unfold exCrystal
    ext i j
    fin_cases i <;> fin_cases j <;> rfl
  obtain ⟨z, hz⟩ := c112_kpts_partial exCrystal ex_unit hsym (by rw [ex_det]; norm_num) (by rw [ex_det]; norm_num) k hk ![1, 0, 0]
  have ht : translation exCrystal.cell ![1, 0, 0] = ![8, 0, 0] := by
    funext k
    fin_cases k <;> simp [translation, Config.cell, supercellLattice, Supercell.real, exCrystal, Fin.sum_univ_three, Matrix.mul_apply] <;> norm_num
  rw [ht] at hz
  refine ⟨z, hz.trans ?_⟩
  simp [exCrystal, Fin.sum_univ_three]
  ring

/-- With the hydrogen lattice alone and a constant wavefunction the energy is the Ewald energy. -/
example (erfc : ℝ → ℝ) (w : Walker 2) (hw : w.logpsi = fun _ => ((0 : ℂ) : WithBot ℂ)) :
    ∃ E, totalEnergy erfc exTables { exCrystal with atoms := [⟨"H", 0, none⟩], pp := .none, imbalance := 1 } w = some E ∧
      E = (potential erfc { exCrystal with atoms := [⟨"H", 0, none⟩], pp := .none, imbalance := 1 }
        [⟨"H", Presets.position 0 exCrystal.lattice, 1, 0, none⟩] w.x : ℂ) := by
  set c : Config := { exCrystal with atoms := [⟨"H", 0, none⟩], pp := .none, imbalance := 1 } with hc
  set at' : List Atom := [⟨"H", Presets.position 0 exCrystal.lattice, 1, 0, none⟩] with hat
  have hr : c.resolve exTables = some at' := by
    simp [Config.resolve, hc, hat, mkAtom, Pp.of, MolEnergy.coreElectrons, exTables]
  have hacc : c.accepted at' := by
    unfold Config.accepted
    refine ⟨trivial, ?_, by simp [hat, hc, exCrystal], by simp [hat, hc, exCrystal], by simp [hat, hc, exCrystal]⟩
    intro a ha
    obtain rfl : a = ⟨"H", 0, none⟩ := by simpa [hc] using ha
    rintro ⟨k, hk | hk⟩ <;> norm_num at hk
  have he : ecpCoefficients exTables at' = [] := by simp [ecpCoefficients, hat]
  have hph : phElements at' = [] := by simp [phElements, hat]
  have hd : ∀ (a b : ℂ), Stats.Dict.update [] [("energy:potential", a)] = [("energy:potential", a)] ∧
      Stats.Dict.update [("energy:potential", a)] [("energy:kinetic", b)] = [("energy:potential", a), ("energy:kinetic", b)] := by
    intro a b
    refine ⟨?_, ?_⟩ <;> simp [Stats.Dict.update, Stats.Dict.set]
  have hex : ∃ E, totalEnergy erfc exTables c w = some E := by
    unfold totalEnergy
    rw [hr]
    dsimp only
    rw [if_neg (not_not.mpr hacc), if_neg (not_not.mpr hph)]
    unfold Config.makeEstimators
    dsimp only
    rw [if_pos he]
    simp only [List.append_nil, List.cons_append, List.nil_append, runEstimators, Est.eval, (hd _ 0).1, (hd _ _).2, List.map_cons,
      List.map_nil, (MolEnergy.Props.sum4 _ _ 0 0).1]
    exact ⟨_, rfl⟩
  obtain ⟨E, hE⟩ := hex
  refine ⟨E, hE, ?_⟩
  have hf : w.f = fun _ => 0 := by funext y; simp [Walker.f, hw]
  obtain ⟨e, h1, -, h3⟩ := c112_energy erfc exTables c at' hr w (by rw [hf]; exact contDiffAt_const) (by rw [hw]; simp) E hE
  obtain rfl : e = 0 := h1 fun a ha p => by
    obtain rfl : a = _ := by simpa [hat] using ha
    simp [treatment]
  have hpsi : ∀ y, psi (w.logpsi y) = 1 := by intro y; rw [hw]; simp [psi]
  simp only [hpsi] at h3
  have hl : laplacian (fun _ : Fin 2 → Fin 3 → ℝ => (1 : ℂ)) w.x = 0 := by simp [laplacian]
  rw [hl] at h3
  simpa using h3

/-- C112 (settings): the number of nuclei, the quadrature rule, the simulation cell and the twist reach the effective-core estimator as
configured. -/
theorem c112_settings (c : Config) (w : Walker n) (coeffs : List (String × PyscfEcp)) (symbols : List String) :
    (c.ecpEstimator w coeffs symbols).maxCore = w.maxCore ∧ (c.ecpEstimator w coeffs symbols).rule = w.rule ∧
    (c.ecpEstimator w coeffs symbols).boundary.lattice = some c.cell ∧ (c.ecpEstimator w coeffs symbols).boundary.twist = some c.twist :=
  ⟨rfl, rfl, rfl, rfl⟩

/-- C112 (basis): the atoms of the primitive cell are those the user wrote, in order, at the fractional coordinates in terms of the
primitive lattice vectors, with the requested treatment, the core electrons of that treatment removed, and the charge given or the atomic number less the
core. -/
theorem c112_basis (T : Tables) (c : Config) (atoms : List Atom) (h : c.resolve T = some atoms) :
    atoms.length = c.atoms.length ∧ ∀ (i : ℕ) (g : AtomConfig) (a : Atom), c.atoms[i]? = some g → atoms[i]? = some a →
      a.symbol = g.symbol ∧ (∀ k, a.coords k = g.frac 0 * c.lattice 0 k + g.frac 1 * c.lattice 1 k + g.frac 2 * c.lattice 2 k) ∧
      ∃ z, T.number a.symbol = some z ∧ (∀ q, g.charge = some q → a.charge = q) ∧ (g.charge = none → a.charge = z - a.core) := by
  obtain ⟨h1, h2⟩ := MolEnergy.Props.c109_atoms T (asMol c) atoms ((resolve_asMol T c).trans h)
  refine ⟨by simpa [asMol] using h1, fun i g a hg ha => ?_⟩
  obtain ⟨e1, -, e2, t, z, -, hz, -, e3, e4⟩ := h2 i ⟨g.symbol, Presets.position g.frac c.lattice, g.charge⟩ a (by simp [asMol, hg]) ha
  refine ⟨e1, fun k => ?_, z, hz, e3, e4⟩
  have := e2 k
  simpa [asMol, Presets.position, Fin.sum_univ_three] using this

/-- C112 (checks): a potential for an element the crystal does not have, fractional coordinates outside `[0, 1)`, a negative number of electrons, and a
spin that does not fit the number of electrons of the primitive cell are refused. -/
theorem c112_checks (erfc : ℝ → ℝ) (T : Tables) (c : Config) (w : Walker n) (atoms : List Atom) (h : c.resolve T = some atoms) :
    (∀ d, c.pp = .dict d → ∀ e ∈ d, (∀ a ∈ c.atoms, a.symbol ≠ e.1) → totalEnergy erfc T c w = none) ∧
    (∀ a ∈ c.atoms, ∀ k, (a.frac k < 0 ∨ 1 ≤ a.frac k) → totalEnergy erfc T c w = none) ∧
    ((atoms.map (·.charge)).sum < c.totalCharge → totalEnergy erfc T c w = none) ∧
    ((atoms.map (·.charge)).sum - c.totalCharge < |c.imbalance| → totalEnergy erfc T c w = none) ∧
    (((atoms.map (·.charge)).sum - c.totalCharge + c.imbalance) % 2 = 1 → totalEnergy erfc T c w = none) := by
  have key := (c112_refused erfc T c w).2.2 atoms h
  refine ⟨fun d hd e he hn => key fun ha => ?_, fun a ha k hk => key fun hacc => hacc.2.1 a ha ⟨k, hk⟩, fun hl => key fun ha => ?_,
    fun hl => key fun ha => ?_, fun hl => key fun ha => ?_⟩
  · have := ha.1
    rw [hd] at this
    obtain ⟨a, ha, hs⟩ := this e he
    exact hn a ha hs
  · have := ha.2.2.1
    omega
  · have := ha.2.2.2.1
    omega
  · have := ha.2.2.2.2
    omega

end Jaqmc.SolidEnergy.Props
