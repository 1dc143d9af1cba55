import Verif.Model.Ecp
import Verif.Model.Ph
import Verif.Model.Kinetic
import Verif.Model.Stats
import Mathlib.Logic.Equiv.Fin.Basic
/-!
Model of the local energy of a molecule: `src/jaqmc/app/molecule/{hamiltonian,workflow}.py`, `app/molecule/config/base.py`,
`utils/atomic/{atom,atomic_system,pp}.py`.  Exact arithmetic; a division by zero (two particles at one point) is not a number
in the code and is excluded by the theorems.  The element table and the pseudopotential library of PySCF are parameters.
-/
namespace Jaqmc.MolEnergy
open Jaqmc.Geometry Jaqmc.Ecp
open scoped Classical

variable {n A : ℕ}

/-! ### app/molecule/hamiltonian.py -/

/-- `jnp.sum(jnp.triu(M, k=1))`. -/
noncomputable def triuSum (M : Fin n → Fin n → ℝ) : ℝ := ∑ i, ∑ j, if i < j then M i j else (0 : ℝ)

/-- `jnp.eye`. -/
noncomputable def eye (i j : Fin n) : ℝ := if i = j then 1 else 0

/-- `potential_energy`, hamiltonian.py:9-22. -/
noncomputable def potential (r : Fin n → Vec 3) (atoms : Fin A → Vec 3) (Z : Fin A → ℝ) : ℝ :=
  let rAe := (pairBetween r atoms).2
  let rEe := fun i j => (pairWithin r).2 i j + eye i j
  let rAa := fun a b => (pairWithin atoms).2 a b + eye a b
  (∑ i, ∑ a, -1 * Z a / rAe i a) + triuSum (fun i j => 1 / rEe i j) + triuSum (fun a b => Z b * Z a / rAa a b)

/-! ### Which atom is treated how -/

/-- The `pp` argument, atomic_system.py:58-68. -/
inductive Pp
  | none
  | all (name : String)
  | dict (d : List (String × String))

/-- `self.pp.get(atom.symbol) if isinstance(self.pp, dict) else self.pp`, config/base.py:73. -/
def Pp.of : Pp → String → Option String
  | .none, _ => Option.none
  | .all s, _ => some s
  | .dict d, sym => d.lookup sym

/-- The external tables: atomic numbers (elements.py) and `gto.basis.load_ecp(name, symbol)`; `none` for what raises or returns
nothing usable. -/
structure Tables where
  number : String → Option ℤ
  loadEcp : String → String → Option PyscfEcp

/-- `PP_PH`, pp.py:38. -/
def PH : String := "ph"

/-- `SUPPORTED_PH_ELEMENTS`, pp.py:42-47. -/
def phSupported : List String := ["Cr", "Mn", "Fe", "Co", "Ni", "Cu", "Zn", "P", "S", "Cl"]

/-- `core_electrons_by_pp`, pp.py:53-84; `none` is the `ValueError`. -/
def coreElectrons (T : Tables) (sym : String) : Option String → Option ℤ
  | none => some 0
  | some pp =>
    if pp = PH then (if sym ∈ phSupported then some 10 else none)
    else (T.loadEcp pp sym).map fun p => (p.core : ℤ)

/-- `Atom`, atom.py:12-32. -/
structure Atom where
  symbol : String
  coords : Vec 3
  charge : ℤ
  core : ℤ
  pp : Option String

/-- `Atom.__init__`, atom.py:34-54; `none` is an exception (`ValueError`, or `KeyError` for an unknown symbol). -/
def mkAtom (T : Tables) (sym : String) (coords : Vec 3) (charge : Option ℤ) (pp : Option String) : Option Atom :=
  match coreElectrons T sym pp, T.number sym with
  | some core, some z =>
    match charge with
    | some c => if c + core ≠ z ∧ pp = some PH then none else some ⟨sym, coords, c, core, pp⟩
    | none => some ⟨sym, coords, z - core, core, pp⟩
  | _, _ => none

/-- `AtomConfig`, config/base.py:17-43 (three coordinates are in the type). -/
structure AtomConfig where
  symbol : String
  coords : Vec 3
  charge : Option ℤ

/-- The part of `MoleculeConfig` used here, config/base.py:47-66. -/
structure Config where
  angstrom : Bool
  atoms : List AtomConfig
  pp : Pp

/-- `ONE_ANGSTROM_IN_BOHR`, utils/units.py:31-32. -/
noncomputable def angstromInBohr : ℝ := 1 / 0.52917721067

/-- `MoleculeConfig.atoms`, config/base.py:67-79. -/
noncomputable def Config.resolve (T : Tables) (c : Config) : Option (List Atom) :=
  c.atoms.mapM fun a =>
    mkAtom T a.symbol (if c.angstrom then fun k => a.coords k * angstromInBohr else a.coords) a.charge (c.pp.of a.symbol)

/-- The first two checks of `AtomicSystemConfig.__post_init__`, atomic_system.py:76-87: no element of the `pp` dictionary is
absent from the molecule. -/
def Config.used (c : Config) : Prop :=
  match c.pp with
  | .dict d => ∀ e ∈ d, ∃ a ∈ c.atoms, a.symbol = e.1
  | _ => True

/-- `ecp_coefficients`, atomic_system.py:142-149: a dictionary by element. -/
noncomputable def ecpCoefficients (T : Tables) (atoms : List Atom) : List (String × PyscfEcp) :=
  atoms.foldl (fun d a =>
    match a.pp with
    | some pp => if pp = PH then d else
        match T.loadEcp pp a.symbol with
        | some p => Stats.Dict.set d a.symbol p
        | none => d
    | none => d) []

/-- `ph_elements`, atomic_system.py:151-154. -/
def phElements (atoms : List Atom) : List String := (atoms.filter fun a => decide (a.pp = some PH)).map (·.symbol)

/-! ### workflow.py -/

/-- The estimators that report energies. -/
inductive Est
  | potential
  | kinetic
  | ecp (coeffs : List (String × PyscfEcp)) (symbols : List String)
  | ph (elements : List String) (symbols : List String)
  | total

/-- `make_estimators`, workflow.py:138-185, the energies (`estimators` is a dictionary in insertion order). -/
noncomputable def makeEstimators (T : Tables) (atoms : List Atom) : List Est :=
  let symbols := atoms.map (·.symbol)
  let coeffs := ecpCoefficients T atoms
  let ph := phElements atoms
  [.potential] ++ (if ph = [] then [.kinetic] else []) ++ (if coeffs = [] then [] else [.ecp coeffs symbols]) ++
    (if ph = [] then [] else [.ph ph symbols]) ++ [.total]

/-- `data.electrons.reshape(-1)` and back, euclidean.py:84-100. -/
def flatten (x : Fin n → Fin 3 → ℝ) : Fin (n * 3) → ℝ := fun k => x (finProdFinEquiv.symm k).1 (finProdFinEquiv.symm k).2

/-- The inverse of `flatten`. -/
def unflatten (y : Fin (n * 3) → ℝ) : Fin n → Fin 3 → ℝ := fun i k => y (finProdFinEquiv (i, k))

/-- One walker: the electrons, the wavefunction (`f` is `logpsi`, `sign` the sign), the settings of the estimators, the radial
tables of the pseudo-Hamiltonian elements (`m + 2` entries) and the rotations of the quadrature. -/
structure Walker (n : ℕ) where
  x : Fin n → Fin 3 → ℝ
  f : (Fin n → Fin 3 → ℝ) → ℝ
  sign : (Fin n → Fin 3 → ℝ) → ℝ
  mode : Kinetic.Mode
  maxCore : ℕ
  rule : Rule
  R : Fin n → Matrix (Fin 3) (Fin 3) ℝ
  m : ℕ
  tables : String → (ℕ → ℝ) × (ℕ → ℝ)

/-- The wavefunction as a phase and the logarithm of the modulus. -/
noncomputable def Walker.phase (w : Walker n) (y : Fin n → Fin 3 → ℝ) : ℂ × ℝ := ((w.sign y : ℂ), w.f y)

/-- Position of atom `i` (`data.atoms`, app/molecule/data.py:48). -/
noncomputable def atomPos (atoms : List Atom) (i : ℕ) : Vec 3 := ((atoms[i]?).map (·.coords)).getD 0

/-- The ECP estimator as `make_estimators` sets it up, workflow.py:158-167. -/
noncomputable def ecpEstimator (w : Walker n) (coeffs : List (String × PyscfEcp)) (symbols : List String) : Estimator :=
  ⟨w.maxCore, w.rule, ⟨none, none⟩, coeffs, symbols⟩

/-- The statistics of one estimator for one walker; `none` is an exception or NaN.  The kinetic energy is `EuclideanKinetic` in a
Hessian mode and the pseudo-Hamiltonian that of the standard backend (the forward-Laplacian ones give the same, C68 and C92). -/
noncomputable def Est.eval (w : Walker n) (atoms : List Atom) : Est → Option (Stats.Dict ℂ)
  | .potential =>
    some [("energy:potential", (MolEnergy.potential w.x (fun a : Fin atoms.length => (atoms.get a).coords) (fun a => ((atoms.get a).charge : ℝ)) : ℂ))]
  | .kinetic => some [("energy:kinetic", (Kinetic.standard w.mode (fun y => w.f (unflatten y)) (flatten w.x) : ℂ))]
  | .ecp coeffs symbols =>
    ((ecpEstimator w coeffs symbols).energy (fun p a k => p k - a k) w.phase w.x (atomPos atoms) w.R).map fun z => [("energy:ecp", z)]
  | .ph elements symbols =>
    match Ph.resolve phSupported elements symbols with
    | none => none
    | some idx =>
      let pos := fun a : Fin idx.length => atomPos atoms (idx.get a)
      let tab := fun a : Fin idx.length => w.tables (symbols.getD (idx.get a) "")
      (Ph.standard w.f w.x pos (Ph.radialL2 w.m w.x pos fun a => (tab a).2) : Option ℝ).map fun d : ℝ =>
        [("energy:kinetic", (d : ℂ)), ("energy:ph", (Ph.zeroOrder w.m w.x pos (fun a => (tab a).1) : ℂ))]
  | .total => some []

/-- The pipeline up to and including `TotalEnergy()` (C19, C21): each estimator sees the statistics of the ones before it. -/
noncomputable def runEstimators (w : Walker n) (atoms : List Atom) : List Est → Stats.Dict ℂ → Option ℂ
  | [], _ => none
  | .total :: _, d => (Stats.totalEnergy none (d.map fun p => (p.1, Stats.Stat.scalar p.2))).toOption
  | e :: es, d =>
    match e.eval w atoms with
    | none => none
    | some s => runEstimators w atoms es (Stats.Dict.update d s)

/-- `total_energy` of one walker of a molecule; the checks of the numbers of electrons (atomic_system.py:89-124) are left out. -/
noncomputable def totalEnergy (T : Tables) (c : Config) (w : Walker n) : Option ℂ :=
  if ¬ c.used then none else
  match c.resolve T with
  | none => none
  | some atoms => runEstimators w atoms (makeEstimators T atoms) []

end Jaqmc.MolEnergy
