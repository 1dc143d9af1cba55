import Mathlib.Algebra.BigOperators.Group.List.Basic
/-!
Model of `src/jaqmc/utils/atomic/initialization.py`, with the parts of `atom.py` and `atomic_system.py` it uses.
The random choices of `distribute_spins` are an arbitrary function `pick`: `pick k m` is the index drawn at the `k`-th
iteration among `m + 1` candidates (`jax.random.randint(key, (), 0, m + 1)`).
-/
namespace Jaqmc.Spins

/-- The parts of an atom used here, atom.py:13-79: effective charge and number of unpaired electrons. -/
structure Atom where
  charge : ℤ
  unpaired : ℤ

/-- `AtomInitialization`, atomic_system.py:16-48: `imbalance` is the property `spin_imbalance` (`2 * local_s_z`). -/
structure Init where
  imbalance : Option ℤ
  localCharge : ℤ

/-- The errors raised by `distribute_spins`. -/
inductive Err
  | offsets
  | negative
  | electrons
  | fixedTotals
  | unassignable
deriving DecidableEq

/-- `Atom.spin_config`, atom.py:65-79 (`//` by 2 is the floor). -/
def Atom.spinConfig (a : Atom) : ℤ × ℤ := ((a.charge + a.unpaired) / 2, (a.charge - a.unpaired) / 2)

/-- `_atom_initial_spin_config` without its final check, initialization.py:20-29. -/
def rawSpins (a : Atom) (i : Init) : ℤ × ℤ :=
  match i.imbalance with
  | some s => ((a.charge + i.localCharge + s) / 2, (a.charge + i.localCharge - s) / 2)
  | none =>
    if i.localCharge > a.spinConfig.1 then (0, a.spinConfig.1 + a.spinConfig.2 - i.localCharge)
    else (a.spinConfig.1 - i.localCharge, a.spinConfig.2)

/-- `_atom_initial_spin_config`, initialization.py:14-36. -/
def atomSpins (a : Atom) (i : Init) : Except Err (ℤ × ℤ) :=
  if (rawSpins a i).1 < 0 ∨ (rawSpins a i).2 < 0 then .error .negative else .ok (rawSpins a i)

/-- `list(map(_atom_initial_spin_config, ...))`, initialization.py:71: the first error stops. -/
def allSpins : List (Atom × Init) → Except Err (List (ℤ × ℤ))
  | [] => .ok []
  | (a, i) :: rest =>
    match atomSpins a i with
    | .error e => .error e
    | .ok s =>
      match allSpins rest with
      | .error e => .error e
      | .ok ss => .ok (s :: ss)

/-- Sum of a channel. -/
def alphas (l : List (ℤ × ℤ)) : ℤ := (l.map Prod.fst).sum

/-- Sum of a channel. -/
def betas (l : List (ℤ × ℤ)) : ℤ := (l.map Prod.snd).sum

/-- The candidate list, initialization.py:96-105: indices of atoms that are not fixed and have an electron to flip. -/
def candidates (fixed : List Bool) (spins : List (ℤ × ℤ)) (up : Bool) : List Nat :=
  (List.range spins.length).filter (fun i =>
    (fixed.getD i true == false) && (if up then decide ((spins.getD i (0, 0)).2 > 0) else decide ((spins.getD i (0, 0)).1 > 0)))

/-- The rebalancing loop, initialization.py:99-121, from iteration `step`. -/
def loop (pick : Nat → (m : Nat) → Fin (m + 1)) (fixed : List Bool) (target : ℤ) (step : Nat) (spins : List (ℤ × ℤ))
    (current : ℤ) : Except Err (List (ℤ × ℤ)) :=
  if current = target then .ok spins
  else
    let up := decide (target > current)
    match candidates fixed spins up with
    | [] => .error .unassignable
    | c :: cs =>
      let i := (c :: cs).get (pick step cs.length)
      let s := spins.getD i (0, 0)
      if target > current then loop pick fixed target (step + 1) (spins.set i (s.1 + 1, s.2 - 1)) (current + 1)
      else loop pick fixed target (step + 1) (spins.set i (s.1 - 1, s.2 + 1)) (current - 1)
termination_by (target - current).natAbs
decreasing_by
  all_goals omega

/-- `distribute_spins`, initialization.py:39-121, on aligned lists of atoms and hints. -/
def distribute (pick : Nat → (m : Nat) → Fin (m + 1)) (atoms : List (Atom × Init)) (total : ℤ × ℤ) :
    Except Err (List (ℤ × ℤ)) :=
  if (atoms.map (fun p => p.2.localCharge)).sum ≠ 0 then .error .offsets
  else
    match allSpins atoms with
    | .error e => .error e
    | .ok spins =>
      let fixed := atoms.map (fun p => p.2.imbalance.isSome)
      let explicit := ((spins.zip fixed).filter Prod.snd).map Prod.fst
      if total.1 + total.2 ≠ alphas spins + betas spins then .error .electrons
      else if fixed.all id then
        if (alphas explicit, betas explicit) ≠ total then .error .fixedTotals else .ok explicit
      else loop pick fixed total.1 0 spins (alphas spins)

/-- `AtomicSystemConfig.electron_spins`, atomic_system.py:136-140, for `imbalance = round(2 * s_z)`. -/
def electronSpins (atoms : List (Atom × Init)) (totalCharge imbalance : ℤ) : ℤ × ℤ :=
  let nelec := (atoms.map (fun p => p.1.charge)).sum - totalCharge
  ((nelec + imbalance) / 2, (nelec - imbalance) / 2)

/-- The atom index around which each electron starts, in the order of the position array:
`initialize_electrons_gaussian`, initialization.py:150-156 (the coordinates of atom `j` are `atom_coords[j]`; the
Gaussian noise is not modelled). -/
def centers (spins : List (ℤ × ℤ)) : List Nat :=
  ((List.range spins.length).flatMap fun j => List.replicate (spins.getD j (0, 0)).1.toNat j)
    ++ (List.range spins.length).flatMap fun j => List.replicate (spins.getD j (0, 0)).2.toNat j

/-- `initial_spins_per_atom * config.scale`, app/solid/data.py:62-65. -/
def repeated (spins : List (ℤ × ℤ)) (scale : Nat) : List (ℤ × ℤ) := (List.replicate scale spins).flatten

end Jaqmc.Spins
