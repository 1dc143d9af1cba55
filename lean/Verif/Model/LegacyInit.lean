import Mathlib.Algebra.Ring.Defs
/-! # First electron positions of the pseudopotential examples (C129)

`src/jaqmc_legacy/pp/utils/init_electrons.py:13-83` and the same text in
`legacy_examples/pp/lapnet/run.py:242-312`.  Coordinates are in any ring; Gaussian numbers and
`np.random.randint` are arbitrary streams. -/

namespace Jaqmc.LegacyInit

/-- The fields of `system.Atom` that are read, init_electrons.py:41-53,69: `element.nalpha`,
`element.nbeta`, `atomic_number`, the (possibly reduced) `charge` and the coordinates. -/
structure Atom (R : Type) where
  nalpha : Int
  nbeta : Int
  number : Int
  charge : Int
  coords : List R

/-- The argument `electrons`: two numbers, in a tuple or in another sequence
(init_electrons.py:16,58: a tuple is compared with it). -/
structure Electrons where
  alpha : Int
  beta : Int
  isTuple : Bool

inductive Err
  | notImplemented
  | assertion
  | emptyRange
  | index
  | negative
  | nothingToConcatenate
  deriving DecidableEq

/-- The assignment derived from the elements, init_electrons.py:51-55.  `//` rounds down. -/
def derived {R : Type} (molecule : List (Atom R)) : List (Int × Int) :=
  molecule.map fun a => (a.nalpha - (a.number - a.charge) / 2, a.nbeta - (a.number - a.charge) / 2)

/-- `tuple(sum(x) for x in zip(*configs))`, init_electrons.py:58. -/
def totals (configs : List (Int × Int)) : Option (Int × Int) :=
  if configs.isEmpty then none else some ((configs.map Prod.fst).sum, (configs.map Prod.snd).sum)

/-- The condition under which the loop of init_electrons.py:58 ends. -/
def done (electrons : Electrons) (configs : List (Int × Int)) : Bool :=
  electrons.isTuple && decide (totals configs = some (electrons.alpha, electrons.beta))

/-- One atom's turn, init_electrons.py:60-62. -/
def flip (c : Int × Int) : Int × Int := if c.1 > 0 then (c.1 - 1, c.2 + 1) else c

/-- The loop of init_electrons.py:58-62 from its `t`-th turn, followed for `fuel` tests of its condition:
none when it is still running.  `picks t` is what `randint` gives at turn `t`. -/
def loop (electrons : Electrons) (picks : Nat → Nat) : Nat → Nat → List (Int × Int) →
    Option (Except Err (List (Int × Int)))
  | 0, _, _ => none
  | fuel + 1, t, configs =>
    if done electrons configs then some (.ok configs)
    else if configs.isEmpty then some (.error .emptyRange)
    else loop electrons picks fuel (t + 1) (configs.modify (picks t) flip)

/-- The assignment of electrons to atoms, init_electrons.py:38-62.  `given` is
`given_atomic_spin_configs`, a list. -/
def assign {R : Type} (electrons : Electrons) (molecule : List (Atom R)) (given : Option (List (Int × Int)))
    (picks : Nat → Nat) (fuel : Nat) : Option (Except Err (List (Int × Int))) :=
  if (molecule.map Atom.charge).sum ≠ electrons.alpha + electrons.beta ∧ given = none then
    if molecule.length = 1 then some (.ok [(electrons.alpha, electrons.beta)])
    else some (.error .notImplemented)
  else
    let configs := match given with
      | none => derived molecule
      | some g => g
    if (configs.map fun c => c.1 + c.2).sum ≠ electrons.alpha + electrons.beta then some (.error .assertion)
    else loop electrons picks fuel 0 configs

/-- `jnp.tile(coords, n)`, init_electrons.py:69-71. -/
def tile {R : Type} (coords : List R) (n : Int) : Except Err (List R) :=
  if n < 0 then .error .negative else .ok (List.replicate n.toNat coords).flatten

/-- The centres of one spin, init_electrons.py:68-71: atom by atom; `count` chooses the spin.  `j` is the
number of the first atom of the list. -/
def spinCentres {R : Type} (configs : List (Int × Int)) (count : Int × Int → Int) :
    Nat → List (Atom R) → Except Err (List R)
  | _, [] => .ok []
  | j, a :: rest =>
    match configs[j]? with
    | none => .error .index
    | some c => do
      let here ← tile a.coords (count c)
      let more ← spinCentres configs count (j + 1) rest
      return here ++ more

/-- `electron_positions`, init_electrons.py:65-72. -/
def centres {R : Type} (configs : List (Int × Int)) (molecule : List (Atom R)) : Except Err (List R) := do
  let up ← spinCentres configs Prod.fst 0 molecule
  let down ← spinCentres configs Prod.snd 0 molecule
  if molecule.isEmpty then .error .nothingToConcatenate else return up ++ down

/-- The result, init_electrons.py:75-79: one row per walker. -/
def positions {R : Type} [Ring R] (centre : List R) (width : R) (batch : Nat) (normal : Nat → Nat → R) :
    List (List R) :=
  (List.range batch).map fun b => centre.mapIdx fun k c => c + width * normal b k

/-- `init_electrons`, init_electrons.py:13-79, followed for `fuel` tests of the loop. -/
def initElectrons {R : Type} [Ring R] (molecule : List (Atom R)) (electrons : Electrons) (batch : Nat)
    (width : R) (given : Option (List (Int × Int))) (picks : Nat → Nat) (normal : Nat → Nat → R) (fuel : Nat) :
    Option (Except Err (List (List R))) :=
  (assign electrons molecule given picks fuel).map fun r => do
    let configs ← r
    let centre ← centres configs molecule
    return positions centre width batch normal

end Jaqmc.LegacyInit
