import Verif.Props.MolEnergyTotal
import Mathlib.Analysis.Calculus.ContDiff.Operations
/-!
C109, continued: the total energy is the Hamiltonian applied to the wavefunction.
-/
namespace Jaqmc.MolEnergy.Props
open Jaqmc.MolEnergy Jaqmc.MolEnergy.Spec Jaqmc.Geometry Jaqmc.Ecp
open Jaqmc.Ph.Spec (radius derivativePart)
open scoped Topology Classical

variable {n : ℕ}

/-! ### Flattened coordinates -/

theorem unflatten_update (x : Fin n → Fin 3 → ℝ) (i : Fin n) (k : Fin 3) (t : ℝ) :
    unflatten (Function.update (flatten x) (finProdFinEquiv (i, k)) t) = Function.update x i (Function.update (x i) k t) := by
  funext i' k'
  unfold unflatten
  by_cases hi : i' = i
  · subst hi
    by_cases hk : k' = k
    · subst hk
      simp
    · have : finProdFinEquiv (i', k') ≠ finProdFinEquiv (i', k) := fun he => hk (by simpa using finProdFinEquiv.injective he)
      rw [Function.update_of_ne this]
      simp [flatten, hk]
  · have : finProdFinEquiv (i', k') ≠ finProdFinEquiv (i, k) := fun he => hi (by simpa using (Prod.mk.inj (finProdFinEquiv.injective he)).1)
    rw [Function.update_of_ne this]
    simp [flatten, hi]

theorem unflatten_flatten (x : Fin n → Fin 3 → ℝ) : unflatten (flatten x) = x := by
  funext i k
  simp [unflatten, flatten]

/-- The Laplacian over the flattened coordinates is the Laplacian over the electrons. -/
theorem laplacian_flat (F : (Fin n → Fin 3 → ℝ) → ℝ) (x : Fin n → Fin 3 → ℝ) :
    Kinetic.Spec.laplacian (fun y => F (unflatten y)) (flatten x) = Ph.Spec.laplacian F x := by
  unfold Kinetic.Spec.laplacian Ph.Spec.laplacian
  rw [← Equiv.sum_comp finProdFinEquiv, Fintype.sum_prod_type]
  refine Finset.sum_congr rfl fun i _ => Finset.sum_congr rfl fun k _ => ?_
  unfold Kinetic.Spec.second Ph.Spec.partial'
  have h1 : flatten x (finProdFinEquiv (i, k)) = x i k := by simp [flatten]
  simp only [unflatten_update, h1, Function.update_self, Function.update_idem]

theorem unflatten_contDiff : ContDiff ℝ 2 (unflatten : (Fin (n * 3) → ℝ) → Fin n → Fin 3 → ℝ) := by
  refine contDiff_pi.mpr fun i => contDiff_pi.mpr fun k => ?_
  exact contDiff_apply ℝ ℝ (finProdFinEquiv (i, k))

/-- The kinetic energy, on the electrons. -/
theorem kinetic_eq (w : Walker n) (hf : ContDiffAt ℝ 2 w.f w.x) (hs : ∀ y, w.sign y = 1 ∨ w.sign y = -1)
    (hc : ContinuousAt (fun y => w.sign y * Real.exp (w.f y)) w.x) :
    Kinetic.standard w.mode (fun y => w.f (unflatten y)) (flatten w.x) * (w.sign w.x * Real.exp (w.f w.x)) =
      -(1 / 2) * Ph.Spec.laplacian (fun y => w.sign y * Real.exp (w.f y)) w.x := by
  have h := Kinetic.Props.c68_real w.mode (fun y => w.f (unflatten y)) (fun y => w.sign (unflatten y) * Real.exp (w.f (unflatten y)))
    (fun y => w.sign (unflatten y)) (flatten w.x) ?_ (fun y => hs _) (fun y => rfl) ?_
  · rw [laplacian_flat (fun y => w.sign y * Real.exp (w.f y)), unflatten_flatten] at h
    exact h
  · refine ContDiffAt.comp (flatten w.x) ?_ unflatten_contDiff.contDiffAt
    rw [unflatten_flatten]
    exact hf
  · refine ContinuousAt.comp (f := unflatten) (g := fun y => w.sign y * Real.exp (w.f y)) ?_ unflatten_contDiff.continuous.continuousAt
    rw [unflatten_flatten]
    exact hc

/-! ### The sum of the estimators -/

abbrev isEnergy4 : Prop := Stats.isEnergyKey "energy:potential" = true ∧ Stats.isEnergyKey "energy:kinetic" = true ∧
  Stats.isEnergyKey "energy:ecp" = true ∧ Stats.isEnergyKey "energy:ph" = true

theorem ph_shape (w : Walker n) (atoms : List Atom) (el sy : List String) (s : Stats.Dict ℂ) (h : (Est.ph el sy).eval w atoms = some s) :
    ∃ k p : ℂ, s = [("energy:kinetic", k), ("energy:ph", p)] := by
  unfold Est.eval at h
  dsimp only at h
  split at h
  · cases h
  · obtain ⟨d, _, rfl⟩ := Option.map_eq_some_iff.mp h
    exact ⟨_, _, rfl⟩

theorem upd0 {V : Type} (k1 : String) (a : V) : Stats.Dict.update [] [(k1, a)] = [(k1, a)] := rfl

theorem sum4 (a b c d : ℂ) :
    (Stats.totalEnergy none [("energy:potential", Stats.Stat.scalar a), ("energy:kinetic", .scalar b)]).toOption = some (a + b) ∧
    (Stats.totalEnergy none [("energy:potential", Stats.Stat.scalar a), ("energy:kinetic", .scalar b), ("energy:ph", .scalar c)]).toOption =
      some (a + b + c) ∧
    (Stats.totalEnergy none [("energy:potential", Stats.Stat.scalar a), ("energy:kinetic", .scalar b), ("energy:ecp", .scalar d)]).toOption =
      some (a + b + d) ∧
    (Stats.totalEnergy none [("energy:potential", Stats.Stat.scalar a), ("energy:ecp", .scalar d), ("energy:kinetic", .scalar b),
      ("energy:ph", .scalar c)]).toOption = some (a + d + b + c) := by
  have hpre : isEnergy4 := by decide
  obtain ⟨hk1, hk2, hk3, hk4⟩ := hpre
  refine ⟨?_, ?_, ?_, ?_⟩ <;>
  · unfold Stats.totalEnergy
    simp only [List.map_cons, List.map_nil, List.filter_cons, List.filter_nil, hk1, hk2, hk3, hk4, if_true]
    simp [Stats.sumEnergies, List.lookup_cons, Except.toOption]

theorem run_eq (w : Walker n) (atoms : List Atom) (T : Tables) (E : ℂ) (h : runEstimators w atoms (makeEstimators T atoms) [] = some E) :
    ∃ k p e : ℂ,
      E = (potential w.x (fun a : Fin atoms.length => (atoms.get a).coords) (fun a => ((atoms.get a).charge : ℝ)) : ℂ) + k + p + e ∧
      (ecpCoefficients T atoms = [] → e = 0) ∧
      (ecpCoefficients T atoms ≠ [] → (ecpEstimator w (ecpCoefficients T atoms) (atoms.map (·.symbol))).energy (fun p a k => p k - a k) w.phase w.x
        (atomPos atoms) w.R = some e) ∧
      (phElements atoms = [] → p = 0 ∧ k = (Kinetic.standard w.mode (fun y => w.f (unflatten y)) (flatten w.x) : ℂ)) ∧
      (phElements atoms ≠ [] → (Est.ph (phElements atoms) (atoms.map (·.symbol))).eval w atoms = some [("energy:kinetic", k), ("energy:ph", p)]) := by
  unfold makeEstimators at h
  dsimp only at h
  have hd : ∀ (a b c d : ℂ), Stats.Dict.update [("energy:potential", a)] [("energy:kinetic", b)] = [("energy:potential", a), ("energy:kinetic", b)] ∧
      Stats.Dict.update [("energy:potential", a)] [("energy:kinetic", b), ("energy:ph", c)] = [("energy:potential", a), ("energy:kinetic", b), ("energy:ph", c)] ∧
      Stats.Dict.update [("energy:potential", a)] [("energy:ecp", d)] = [("energy:potential", a), ("energy:ecp", d)] ∧
      Stats.Dict.update [("energy:potential", a), ("energy:kinetic", b)] [("energy:ecp", d)] =
        [("energy:potential", a), ("energy:kinetic", b), ("energy:ecp", d)] ∧
      Stats.Dict.update [("energy:potential", a), ("energy:ecp", d)] [("energy:kinetic", b), ("energy:ph", c)] =
        [("energy:potential", a), ("energy:ecp", d), ("energy:kinetic", b), ("energy:ph", c)] := by
    intro a b c d
    refine ⟨?_, ?_, ?_, ?_, ?_⟩ <;> simp [Stats.Dict.update, Stats.Dict.set]
  have hpot : ∀ d, runEstimators w atoms (Est.potential :: d) [] = runEstimators w atoms d [("energy:potential",
      (potential w.x (fun a : Fin atoms.length => (atoms.get a).coords) (fun a => ((atoms.get a).charge : ℝ)) : ℂ))] := fun d => rfl
  by_cases hc : ecpCoefficients T atoms = [] <;> by_cases hp : phElements atoms = []
  · rw [if_pos hp, if_pos hc, if_pos hp] at h
    simp only [List.append_nil, List.cons_append, List.nil_append, hpot] at h
    simp only [runEstimators, Est.eval, (hd _ _ 0 0).1, List.map_cons, List.map_nil, (sum4 _ _ 0 0).1] at h
    refine ⟨_, 0, 0, ?_, fun _ => rfl, fun h => absurd hc h, fun _ => ⟨rfl, rfl⟩, fun h => absurd hp h⟩
    rw [← Option.some.inj h]; ring
  · rw [if_neg hp, if_pos hc, if_neg hp] at h
    simp only [List.append_nil, List.cons_append, List.nil_append, hpot] at h
    cases he : (Est.ph (phElements atoms) (atoms.map (·.symbol))).eval w atoms with
    | none => simp only [runEstimators, he] at h; cases h
    | some s =>
      obtain ⟨k, p, rfl⟩ := ph_shape w atoms _ _ s he
      simp only [runEstimators, he, (hd _ k p 0).2.1, List.map_cons, List.map_nil, (sum4 _ k p 0).2.1] at h
      refine ⟨k, p, 0, ?_, fun _ => rfl, fun h => absurd hc h, fun h => absurd h hp, fun _ => rfl⟩
      rw [← Option.some.inj h]; ring
  · rw [if_pos hp, if_neg hc, if_pos hp] at h
    simp only [List.append_nil, List.cons_append, List.nil_append, hpot] at h
    cases he : (ecpEstimator w (ecpCoefficients T atoms) (atoms.map (·.symbol))).energy (fun p a k => p k - a k) w.phase w.x
        (atomPos atoms) w.R with
    | none => simp only [runEstimators, Est.eval, he] at h; cases h
    | some e =>
      simp only [runEstimators, Est.eval, he, Option.map_some, (hd _ _ 0 0).1, (hd _ _ 0 e).2.2.2.1, List.map_cons, List.map_nil, (sum4 _ _ 0 e).2.2.1] at h
      refine ⟨_, 0, e, ?_, fun h => absurd h hc, fun _ => rfl, fun _ => ⟨rfl, rfl⟩, fun h => absurd hp h⟩
      rw [← Option.some.inj h]; ring
  · rw [if_neg hp, if_neg hc, if_neg hp] at h
    simp only [List.append_nil, List.cons_append, List.nil_append, hpot] at h
    cases he : (ecpEstimator w (ecpCoefficients T atoms) (atoms.map (·.symbol))).energy (fun p a k => p k - a k) w.phase w.x
        (atomPos atoms) w.R with
    | none =>
      have h0 : (Est.ecp (ecpCoefficients T atoms) (atoms.map (·.symbol))).eval w atoms = none := by unfold Est.eval; dsimp only; rw [he]; rfl
      simp only [runEstimators, h0] at h
      cases h
    | some e =>
      have h0 : (Est.ecp (ecpCoefficients T atoms) (atoms.map (·.symbol))).eval w atoms = some [("energy:ecp", e)] := by unfold Est.eval; dsimp only; rw [he]; rfl
      cases hph : (Est.ph (phElements atoms) (atoms.map (·.symbol))).eval w atoms with
      | none => simp only [runEstimators, h0, hph] at h; cases h
      | some s =>
        obtain ⟨k, p, rfl⟩ := ph_shape w atoms _ _ s hph
        simp only [runEstimators, h0, hph, (hd _ 0 0 e).2.2.1, (hd _ k p e).2.2.2.2, List.map_cons, List.map_nil, (sum4 _ k p e).2.2.2] at h
        refine ⟨k, p, e, ?_, fun h => absurd h hc, fun _ => rfl, fun h => absurd h hp, fun _ => rfl⟩
        rw [← Option.some.inj h]; ring

/-- Sum over a list of indices against the sum over all with a condition. -/
theorem sum_idx (N : ℕ) (P : ℕ → Prop) (idx : List ℕ) (hnd : idx.Nodup) (hm : ∀ i, i ∈ idx ↔ i < N ∧ P i) (g : ℕ → ℝ) :
    ∑ a : Fin idx.length, g (idx.get a) = ∑ b : Fin N, if P b then g b else (0 : ℝ) := by
  have h1 : ∑ a : Fin idx.length, g (idx.get a) = (idx.map g).sum := by
    rw [← List.sum_ofFn]
    congr 1
    apply List.ext_getElem <;> simp
  rw [h1, ← List.sum_toFinset _ hnd, ← Finset.sum_range (fun b => if P b then g b else (0 : ℝ)), ← Finset.sum_filter]
  refine Finset.sum_congr ?_ fun _ _ => rfl
  ext i
  rw [List.mem_toFinset, hm, Finset.mem_filter, Finset.mem_range]

/-- Atom `a` is to be treated by a pseudo-Hamiltonian. -/
def IsPh (T : Tables) (atoms : List Atom) (i : ℕ) : Prop :=
  ∃ a, atoms[i]? = some a ∧ treatment T.loadEcp a.pp a.symbol = some .pseudoHamiltonian

/-- C109: the total energy of a walker, times `ψ`, is the Hamiltonian of the molecule applied to `ψ`: `-½ Δψ`, plus
`Σ (v_L2(r)/r) L² ψ + Σ (v_loc(r)/r) ψ` over the pseudo-Hamiltonian atoms (interpolated tables, C93), plus every Coulomb pair once with
the charges of the atoms after core removal, plus the energy of the effective core potentials (C73), which is there exactly when an atom
has one. -/
theorem c109_energy (T : Tables) (c : Config) (atoms : List Atom) (hr : c.resolve T = some atoms) (w : Walker n)
    (hx : Apart w.x (fun a : Fin atoms.length => (atoms.get a).coords)) (hf : ContDiffAt ℝ 2 w.f w.x)
    (hs : ∀ y, w.sign y = 1 ∨ w.sign y = -1) (ψ : (Fin n → Fin 3 → ℝ) → ℝ) (hψ : ∀ y, ψ y = w.sign y * Real.exp (w.f y)) (hc : ContinuousAt ψ w.x)
    (E : ℂ) (hE : totalEnergy T c w = some E) :
    ∃ ecp : ℂ,
      ((∀ a ∈ atoms, ∀ p, treatment T.loadEcp a.pp a.symbol ≠ some (.effectiveCore p)) → ecp = 0) ∧
      ((∃ a ∈ atoms, ∃ p, treatment T.loadEcp a.pp a.symbol = some (.effectiveCore p)) →
        (ecpEstimator w (ecpCoefficients T atoms) (atoms.map (·.symbol))).energy (fun p a k => p k - a k) w.phase w.x (atomPos atoms) w.R = some ecp) ∧
      E * ψ w.x =
        ((derivativePart (fun a : Fin atoms.length => (atoms.get a).coords) (fun e a => if IsPh T atoms a then
            Ph.interp w.m (w.tables (atoms.get a).symbol).2 (radius (w.x e) (atoms.get a).coords) / radius (w.x e) (atoms.get a).coords else 0) ψ w.x +
          (coulomb w.x (fun a : Fin atoms.length => (atoms.get a).coords) (fun a => ((atoms.get a).charge : ℝ)) +
            ∑ e, ∑ a : Fin atoms.length, if IsPh T atoms a then
              Ph.interp w.m (w.tables (atoms.get a).symbol).1 (radius (w.x e) (atoms.get a).coords) / radius (w.x e) (atoms.get a).coords else 0) * ψ w.x : ℝ) : ℂ)
        + ecp * ψ w.x := by
  obtain rfl : ψ = fun y => w.sign y * Real.exp (w.f y) := funext hψ
  obtain ⟨_, hr2, hr3, hr4⟩ := c109_routing T c atoms hr w
  unfold totalEnergy at hE
  split at hE
  · cases hE
  rw [hr] at hE
  dsimp only at hE
  obtain ⟨k, p, e, rfl, he1, he2, hk1, hk2⟩ := run_eq w atoms T E hE
  refine ⟨e, fun h => he1 (hr2.mpr h), fun ⟨a, ha, q, hq⟩ => he2 fun h0 => hr2.mp h0 a ha q hq, ?_⟩
  rw [c109_potential _ _ _ hx]
  by_cases hph : phElements atoms = []
  · have hno : ∀ i, ¬ IsPh T atoms i := by
      rintro i ⟨a, ha, ht⟩
      exact hr3.mp hph a (List.mem_iff_getElem?.mpr ⟨i, ha⟩) ht
    obtain ⟨rfl, rfl⟩ := hk1 hph
    have hkin := kinetic_eq w hf hs hc
    simp only [hno, if_false, Finset.sum_const_zero, add_zero]
    unfold derivativePart
    simp only [zero_smul, Finset.sum_const_zero, add_zero]
    rw [← hkin]
    push_cast
    ring
  · obtain ⟨idx, hi1, hnd, hm⟩ := hr4 hph
    have hev := hk2 hph
    simp only [Est.eval, hi1] at hev
    obtain ⟨d, hd, heq⟩ := Option.map_eq_some_iff.mp hev
    simp only [List.cons.injEq, Prod.mk.injEq, and_true, true_and] at heq
    obtain ⟨rfl, rfl⟩ := heq
    have hmi : ∀ i, i ∈ idx ↔ i < atoms.length ∧ IsPh T atoms i := by
      intro i
      rw [hm]
      refine ⟨fun h => ⟨?_, h⟩, fun h => h.2⟩
      obtain ⟨a, ha, _⟩ := h
      exact (List.getElem?_eq_some_iff.mp ha).1
    have hpos : ∀ b : Fin atoms.length, atomPos atoms b = (atoms.get b).coords := by
      intro b
      unfold atomPos
      rw [List.getElem?_eq_getElem b.2]
      rfl
    have hsym : ∀ b : Fin atoms.length, (atoms.map (·.symbol)).getD b "" = (atoms.get b).symbol := by
      intro b
      simp [List.getD]
    have hne : ∀ (e : Fin n) (a : Fin idx.length), w.x e ≠ atomPos atoms (idx.get a) := by
      intro e a
      have := ((hmi _).mp (List.get_mem idx a)).1
      have h2 := hpos ⟨_, this⟩
      rw [h2]
      exact hx.2.1 e _
    have hlog : Ph.Spec.LogOf w.f (fun y => w.sign y * Real.exp (w.f y)) w.x := by
      refine Filter.Eventually.of_forall fun y => ?_
      rcases hs y with h | h <;> simp [h]
    have hder := Ph.Props.c92_standard w.f _ w.x hf hlog hc _ hne _ d hd
    have hrad : ∀ (p q : Fin 3 → ℝ), Ph.norm3 (Ph.rel p q) = radius p q := fun p q => rfl
    have h1 : derivativePart (fun a : Fin idx.length => atomPos atoms (idx.get a))
        (fun e a => Ph.radialL2 w.m w.x (fun a : Fin idx.length => atomPos atoms (idx.get a))
          (fun a => (w.tables ((atoms.map (·.symbol)).getD (idx.get a) "")).2) e a / radius (w.x e) (atomPos atoms (idx.get a)))
        (fun y => w.sign y * Real.exp (w.f y)) w.x =
        derivativePart (fun a : Fin atoms.length => (atoms.get a).coords) (fun e a => if IsPh T atoms a then
            Ph.interp w.m (w.tables (atoms.get a).symbol).2 (radius (w.x e) (atoms.get a).coords) / radius (w.x e) (atoms.get a).coords else 0)
          (fun y => w.sign y * Real.exp (w.f y)) w.x := by
      unfold derivativePart Ph.radialL2
      congr 1
      refine Finset.sum_congr rfl fun e _ => ?_
      simp only [hrad]
      rw [sum_idx atoms.length (IsPh T atoms) idx hnd hmi (fun i => (Ph.interp w.m (w.tables ((atoms.map (·.symbol)).getD i "")).2
        (radius (w.x e) (atomPos atoms i)) / radius (w.x e) (atomPos atoms i)) • Ph.Spec.angularSq e (atomPos atoms i)
          (fun y => w.sign y * Real.exp (w.f y)) w.x)]
      refine Finset.sum_congr rfl fun a _ => ?_
      rw [hpos, hsym]
      split
      · rfl
      · rw [zero_smul]
    have h2 : Ph.zeroOrder w.m w.x (fun a : Fin idx.length => atomPos atoms (idx.get a))
        (fun a => (w.tables ((atoms.map (·.symbol)).getD (idx.get a) "")).1) =
        ∑ e, ∑ a : Fin atoms.length, if IsPh T atoms a then
              Ph.interp w.m (w.tables (atoms.get a).symbol).1 (radius (w.x e) (atoms.get a).coords) / radius (w.x e) (atoms.get a).coords else 0 := by
      unfold Ph.zeroOrder
      refine Finset.sum_congr rfl fun e _ => ?_
      simp only [hrad]
      rw [sum_idx atoms.length (IsPh T atoms) idx hnd hmi (fun i => Ph.interp w.m (w.tables ((atoms.map (·.symbol)).getD i "")).1
        (radius (w.x e) (atomPos atoms i)) / radius (w.x e) (atomPos atoms i))]
      refine Finset.sum_congr rfl fun a _ => ?_
      rw [hpos, hsym]
    rw [h2, ← h1, ← hder]
    push_cast
    ring

/-- C109 (all-electron molecules): without pseudopotentials the energy is always a number, real, and
`E ψ = -½ Δψ + (Coulomb energy with the charges of the atoms) ψ`. -/
theorem c109_all_electron (T : Tables) (c : Config) (atoms : List Atom) (hr : c.resolve T = some atoms) (hpp : c.pp = .none) (w : Walker n)
    (hx : Apart w.x (fun a : Fin atoms.length => (atoms.get a).coords)) (hf : ContDiffAt ℝ 2 w.f w.x)
    (hs : ∀ y, w.sign y = 1 ∨ w.sign y = -1) (ψ : (Fin n → Fin 3 → ℝ) → ℝ) (hψ : ∀ y, ψ y = w.sign y * Real.exp (w.f y)) (hc : ContinuousAt ψ w.x) :
    ∃ E : ℝ, totalEnergy T c w = some (E : ℂ) ∧
      E * ψ w.x = -(1 / 2) * Ph.Spec.laplacian ψ w.x +
        coulomb w.x (fun a : Fin atoms.length => (atoms.get a).coords) (fun a => ((atoms.get a).charge : ℝ)) * ψ w.x := by
  obtain rfl : ψ = fun y => w.sign y * Real.exp (w.f y) := funext hψ
  obtain ⟨_, hr2, hr3, _⟩ := c109_routing T c atoms hr w
  have hall : ∀ a ∈ atoms, treatment T.loadEcp a.pp a.symbol = some .allElectron := by
    intro a ha
    rw [(resolve_pp T c atoms hr a ha).1, hpp]
    rfl
  have hc0 : ecpCoefficients T atoms = [] := hr2.mpr fun a ha p h => by rw [hall a ha] at h; cases h
  have hp0 : phElements atoms = [] := hr3.mpr fun a ha h => by rw [hall a ha] at h; cases h
  refine ⟨potential w.x (fun a : Fin atoms.length => (atoms.get a).coords) (fun a => ((atoms.get a).charge : ℝ)) +
    Kinetic.standard w.mode (fun y => w.f (unflatten y)) (flatten w.x), ?_, ?_⟩
  · unfold totalEnergy
    have hu : c.used := by unfold Config.used; rw [hpp]; trivial
    rw [if_neg (not_not.mpr hu), hr]
    dsimp only
    unfold makeEstimators
    dsimp only
    rw [if_pos hp0, if_pos hc0, if_pos hp0]
    simp only [List.append_nil, List.cons_append, List.nil_append]
    simp only [runEstimators, Est.eval, upd0]
    have hd : ∀ (a b : ℂ), Stats.Dict.update [("energy:potential", a)] [("energy:kinetic", b)] = [("energy:potential", a), ("energy:kinetic", b)] := by
      intro a b; simp [Stats.Dict.update, Stats.Dict.set]
    rw [hd, List.map_cons, List.map_cons, List.map_nil, (sum4 _ _ 0 0).1]
    push_cast
    rfl
  · have hkin := kinetic_eq w hf hs hc
    rw [c109_potential _ _ _ hx, ← hkin]
    ring

/-! ### Concrete molecules -/

/-- A library with one carbon potential (two core electrons, a local channel only). -/
def exTables : Tables where
  number s := if s = "H" then some 1 else if s = "C" then some 6 else if s = "S" then some 16 else none
  loadEcp name s := if name = "ccecp" ∧ s = "C" then some ⟨2, [(-1, [[], [(1, 2)]])]⟩ else none

/-- Carbon with an effective core, sulfur with a pseudo-Hamiltonian, an all-electron hydrogen. -/
def exConfig : Config := ⟨false, [⟨"C", 0, none⟩, ⟨"S", 1, some 6⟩, ⟨"H", 2, none⟩], .dict [("C", "ccecp"), ("S", "ph")]⟩

/-- The atoms are resolved, with charges 4, 6 and 1. -/
theorem ex_resolve : exConfig.resolve exTables =
    some [⟨"C", 0, 4, 2, some "ccecp"⟩, ⟨"S", 1, 6, 10, some "ph"⟩, ⟨"H", 2, 1, 0, none⟩] := by
  simp [Config.resolve, exConfig, exTables, mkAtom, Pp.of, coreElectrons, PH, phSupported, List.lookup_cons]

/-- So the effective-core estimator sees atom 0 and the pseudo-Hamiltonian atom 1. -/
example (w : Walker n) : (0, ⟨2, [(-1, [[], [(1, 2)]])]⟩) ∈ (ecpEstimator w (ecpCoefficients exTables [⟨"C", 0, 4, 2, some "ccecp"⟩,
    ⟨"S", 1, 6, 10, some "ph"⟩, ⟨"H", 2, 1, 0, none⟩]) ["C", "S", "H"]).atoms :=
  ((c109_routing exTables exConfig _ ex_resolve w).1 0 _).mpr ⟨_, rfl, by simp [treatment, exTables]⟩

example : ∃ idx, Ph.resolve phSupported (phElements [⟨"C", 0, 4, 2, some "ccecp"⟩, ⟨"S", 1, 6, 10, some "ph"⟩, ⟨"H", 2, 1, 0, none⟩])
    ["C", "S", "H"] = some idx ∧ 1 ∈ idx ∧ 0 ∉ idx ∧ 2 ∉ idx := by
  have hne : phElements [⟨"C", 0, 4, 2, some "ccecp"⟩, ⟨"S", 1, 6, 10, some "ph"⟩, ⟨"H", 2, 1, 0, none⟩] ≠ [] := by
    simp [phElements, PH]
  let w : Walker 0 := ⟨0, fun _ => 0, fun _ => 1, .scan, 1, ⟨[], []⟩, fun _ => 1, 0, fun _ => (fun _ => 0, fun _ => 0)⟩
  obtain ⟨idx, h1, _, h2⟩ := (c109_routing exTables exConfig _ ex_resolve w).2.2.2 hne
  refine ⟨idx, h1, (h2 1).mpr ⟨_, rfl, rfl⟩, fun h => ?_, fun h => ?_⟩
  · obtain ⟨a, ha, ht⟩ := (h2 0).mp h
    simp at ha
    subst ha
    simp [treatment, exTables] at ht
  · obtain ⟨a, ha, ht⟩ := (h2 2).mp h
    simp at ha
    subst ha
    simp [treatment] at ht

/-- Two electrons and a proton with the constant wavefunction: the energy is the Coulomb energy. -/
example (w : Walker 2) (hw : w.f = fun _ => 0) (hs : w.sign = fun _ => 1) (hx : w.x = ![![1, 0, 0], ![3, 0, 0]]) :
    totalEnergy exTables ⟨false, [⟨"H", 0, none⟩], .none⟩ w = some ((1 / 2 - (1 / 1 + 1 / 3) : ℝ) : ℂ) := by
  have hr : (⟨false, [⟨"H", 0, none⟩], .none⟩ : Config).resolve exTables = some [⟨"H", 0, 1, 0, none⟩] := by
    simp [Config.resolve, exTables, mkAtom, Pp.of, coreElectrons]
  have hrad : ∀ a b : ℝ, radius ![a, 0, 0] ![b, 0, 0] = |a - b| := by
    intro a b
    unfold radius
    simp [Fin.sum_univ_three, Real.sqrt_sq_eq_abs]
  have h0 : ∀ a : ℝ, radius ![a, 0, 0] 0 = |a| := by
    intro a
    unfold radius
    simp [Fin.sum_univ_three, Real.sqrt_sq_eq_abs]
  have hap : Apart w.x (fun a : Fin 1 => ([⟨"H", 0, 1, 0, none⟩] : List Atom).get a |>.coords) := by
    rw [hx]
    refine ⟨?_, ?_, ?_⟩
    · intro i j hij
      fin_cases i <;> fin_cases j <;> simp at hij ⊢
    · intro i a h
      have := congrFun h 0
      fin_cases i <;> fin_cases a <;> simp at this
    · intro a b hab
      exact absurd (Subsingleton.elim a b) hab
  obtain ⟨E, hE, h⟩ := c109_all_electron exTables _ _ hr rfl w hap (by rw [hw]; exact contDiffAt_const) (fun y => Or.inl (by rw [hs]))
    (fun _ => 1) (fun y => by rw [hs, hw]; simp) continuousAt_const
  rw [hE]
  congr 2
  have hl : Ph.Spec.laplacian (fun _ : Fin 2 → Fin 3 → ℝ => (1 : ℝ)) w.x = 0 := by
    unfold Ph.Spec.laplacian Ph.Spec.partial'
    simp
  rw [hl, mul_one, mul_zero, zero_add, mul_one] at h
  rw [h]
  unfold coulomb
  have hf : (Finset.univ.filter fun p : Fin 2 × Fin 2 => p.1 < p.2) = {(0, 1)} := by decide
  have hf1 : (Finset.univ.filter fun p : Fin 1 × Fin 1 => p.1 < p.2) = ∅ := by decide
  rw [hx, hf]
  simp only [List.length_cons, List.length_nil, Nat.reduceAdd]
  rw [hf1]
  simp [Fin.sum_univ_two, hrad, h0]
  norm_num

end Jaqmc.MolEnergy.Props
