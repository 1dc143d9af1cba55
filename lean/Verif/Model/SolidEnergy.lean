import Verif.Model.MolEnergy
import Verif.Model.Ewald
import Verif.Model.Presets
/-!
Model of the local energy of a crystal: `src/jaqmc/app/solid/{hamiltonian,workflow,data}.py`, `app/solid/config/base.py`.  Exact
arithmetic; the element table, PySCF's library and the complementary error function are parameters.
-/
namespace Jaqmc.SolidEnergy
open Jaqmc.Geometry Jaqmc.Ecp Jaqmc.Supercell Matrix
open Jaqmc.MolEnergy (Tables Pp Atom mkAtom ecpCoefficients phElements flatten unflatten)
open scoped Classical

variable {n : ℕ}

/-- `SolidAtomConfig`, solid/config/base.py:17-40. -/
structure AtomConfig where
  symbol : String
  frac : Vec 3
  charge : Option ℤ

/-- `SolidConfig`, solid/config/base.py:88-117: the primitive lattice in bohr (C111), the basis, the supercell; `imbalance` is
`round(2 * s_z)`. -/
structure Config where
  lattice : Matrix (Fin 3) (Fin 3) ℝ
  atoms : List AtomConfig
  pp : Pp
  supercell : Matrix (Fin 3) (Fin 3) ℤ
  twist : Vec 3
  totalCharge : ℤ
  imbalance : ℤ

/-- `SolidConfig.atoms`, solid/config/base.py:147-157. -/
def Config.resolve (T : Tables) (c : Config) : Option (List Atom) :=
  c.atoms.mapM fun a => mkAtom T a.symbol (Presets.position a.frac c.lattice) a.charge (c.pp.of a.symbol)

/-- `SolidConfig.supercell_lattice`. -/
def Config.cell (c : Config) : Matrix (Fin 3) (Fin 3) ℝ := supercellLattice c.lattice c.supercell

/-- The checks on elements and numbers of electrons of `AtomicSystemConfig.__post_init__`, atomic_system.py:76-124 (those on the
initialization hints are left out), and of `SolidAtomConfig`, solid/config/base.py:30-40. -/
def Config.accepted (c : Config) (atoms : List Atom) : Prop :=
  let nelec := (atoms.map (·.charge)).sum - c.totalCharge
  (match c.pp with
    | .dict d => ∀ e ∈ d, ∃ a ∈ c.atoms, a.symbol = e.1
    | _ => True) ∧
  (∀ a ∈ c.atoms, Presets.fracOk a.frac) ∧ 0 ≤ nelec ∧ |c.imbalance| ≤ nelec ∧ (nelec + c.imbalance) % 2 = 0

/-- `electron_spins`, atomic_system.py:136-140, for the primitive cell. -/
def Config.electronSpins (c : Config) (atoms : List Atom) : ℤ × ℤ :=
  let nelec := (atoms.map (·.charge)).sum - c.totalCharge
  ((nelec + c.imbalance) / 2, (nelec - c.imbalance) / 2)

/-- `nspins`, workflow.py:78-81 and 168-171. -/
def Config.nspins (c : Config) (atoms : List Atom) : ℤ × ℤ :=
  ((c.electronSpins atoms).1 * scale c.supercell, (c.electronSpins atoms).2 * scale c.supercell)

/-- `super_atom_coords`, data.py:51-54: copies outside, atoms inside. -/
noncomputable def Config.coords (c : Config) (atoms : List Atom) : List (Vec 3) :=
  (copies c.lattice c.supercell).flatMap fun R => atoms.map fun a => fun k => R k + a.coords k

/-- `super_atom_charges`, data.py:55: `jnp.tile`. -/
noncomputable def Config.charges (c : Config) (atoms : List Atom) : List ℤ :=
  (List.replicate (copies c.lattice c.supercell).length (atoms.map (·.charge))).flatten

/-- `atom_symbols`, workflow.py:238-239: the list times the scale. -/
def Config.symbols (c : Config) (atoms : List Atom) : List String :=
  (List.replicate (scale c.supercell) (atoms.map (·.symbol))).flatten

/-- `data.atoms[i]`: JAX clamps an index beyond the end. -/
noncomputable def atomPos (coords : List (Vec 3)) (i : ℕ) : Vec 3 := coords.getD (min i (coords.length - 1)) 0

/-- The estimators that report energies. -/
inductive Est
  | potential
  | kinetic
  | ecp (coeffs : List (String × PyscfEcp)) (symbols : List String)
  | total

/-- `make_estimators`, workflow.py:215-244, the energies. -/
noncomputable def Config.makeEstimators (T : Tables) (c : Config) (atoms : List Atom) : List Est :=
  let coeffs := ecpCoefficients T atoms
  [.potential, .kinetic] ++ (if coeffs = [] then [] else [.ecp coeffs (c.symbols atoms)]) ++ [.total]

/-- One walker: the electrons, the complex `logpsi` (`⊥` where the wavefunction vanishes), the settings and the rotations of the
quadrature. -/
structure Walker (n : ℕ) where
  x : Fin n → Fin 3 → ℝ
  logpsi : (Fin n → Fin 3 → ℝ) → WithBot ℂ
  mode : Kinetic.Mode
  maxCore : ℕ
  rule : Rule
  R : Fin n → Matrix (Fin 3) (Fin 3) ℝ

/-- `logpsi` as a number, where it is one. -/
noncomputable def Walker.f (w : Walker n) (y : Fin n → Fin 3 → ℝ) : ℂ := (w.logpsi y).unbotD 0

/-- `SolidWavefunction.phase_logpsi`, solid/wavefunction.py:143-147.  Where the wavefunction vanishes the code has `(1, -inf)`; the
logarithm is a real number here, so this is `(0, 0)`, with the same value 0. -/
noncomputable def Walker.phase (w : Walker n) (y : Fin n → Fin 3 → ℝ) : ℂ × ℝ :=
  if w.logpsi y = ⊥ then (0, 0) else (Complex.exp (Complex.I * ((w.f y).im : ℂ)), (w.f y).re)

/-- The particles of the Ewald sum, hamiltonian.py:45-52: electrons first. -/
noncomputable def particles (x : Fin n → Vec 3) (coords : List (Vec 3)) : Fin (n + coords.length) → Vec 3 :=
  Fin.append x (fun a => coords.get a)

/-- Their charges, hamiltonian.py:47-52. -/
noncomputable def particleCharges (n : ℕ) (charges : List ℤ) (m : ℕ) : Fin (n + m) → ℝ :=
  Fin.append (fun _ => -1) (fun a => ((charges.getD a 0 : ℤ) : ℝ))

/-- `PotentialEnergy`, hamiltonian.py:18-56, with the default cut-offs of `EwaldSum`, ewald.py:36-41. -/
noncomputable def potential (erfc : ℝ → ℝ) (c : Config) (atoms : List Atom) (x : Fin n → Vec 3) : ℝ :=
  Ewald.energy erfc c.cell 200 1 (particles x (c.coords atoms)) (particleCharges n (c.charges atoms) _)

/-- The ECP estimator as `make_estimators` sets it up, workflow.py:232-243. -/
noncomputable def Config.ecpEstimator (c : Config) (w : Walker n) (coeffs : List (String × PyscfEcp)) (symbols : List String) : Estimator :=
  ⟨w.maxCore, w.rule, ⟨some c.cell, some c.twist⟩, coeffs, symbols⟩

/-- The effective core energy of one walker. -/
noncomputable def Config.ecpEnergy (c : Config) (atoms : List Atom) (w : Walker n) (coeffs : List (String × PyscfEcp)) (symbols : List String) : Option ℂ :=
  (c.ecpEstimator w coeffs symbols).energy (fun p a => (minImage c.cell p a).1) w.phase w.x (atomPos (c.coords atoms)) w.R

/-- The statistics of one estimator for one walker; `none` is an exception.  The kinetic energy is in a Hessian mode (the
forward-Laplacian ones give the same, C68). -/
noncomputable def Est.eval (erfc : ℝ → ℝ) (c : Config) (atoms : List Atom) (w : Walker n) : Est → Option (Stats.Dict ℂ)
  | .potential => some [("energy:potential", (SolidEnergy.potential erfc c atoms w.x : ℂ))]
  | .kinetic => some [("energy:kinetic", Kinetic.standardC w.mode (fun y => w.f (unflatten y)) (flatten w.x))]
  | .ecp coeffs symbols => (c.ecpEnergy atoms w coeffs symbols).map fun z => [("energy:ecp", z)]
  | .total => some []

/-- The pipeline up to and including `TotalEnergy()` (C19, C21). -/
noncomputable def runEstimators (erfc : ℝ → ℝ) (c : Config) (atoms : List Atom) (w : Walker n) : List Est → Stats.Dict ℂ → Option ℂ
  | [], _ => none
  | .total :: _, d => (Stats.totalEnergy none (d.map fun p => (p.1, Stats.Stat.scalar p.2))).toOption
  | e :: es, d =>
    match e.eval erfc c atoms w with
    | none => none
    | some s => runEstimators erfc c atoms w es (Stats.Dict.update d s)

/-- `total_energy` of one walker; a configuration with pseudo-Hamiltonian elements is refused, workflow.py:160-164. -/
noncomputable def totalEnergy (erfc : ℝ → ℝ) (T : Tables) (c : Config) (w : Walker n) : Option ℂ :=
  match c.resolve T with
  | none => none
  | some atoms =>
    if ¬ c.accepted atoms then none
    else if phElements atoms ≠ [] then none
    else runEstimators erfc c atoms w (c.makeEstimators T atoms) []

/-- The k-points of `make_scf`, workflow.py:187-203: folded points plus the twist in the reciprocal lattice of the supercell. -/
noncomputable def Config.kpts (c : Config) : List (Vec 3) :=
  (Supercell.kpts c.supercell (reciprocal c.lattice)).map fun k => fun j => k j + (c.twist ᵥ* reciprocal c.cell) j

end Jaqmc.SolidEnergy
