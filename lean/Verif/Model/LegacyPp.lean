import Verif.Model.MolEnergy
/-!
Model of the pseudopotential energies of the legacy package: `src/jaqmc_legacy/pp/{hamiltonian,ecp_potential,special,quadrature}.py` and
`pp/ph/{hamiltonian,data}.py`.  Exact arithmetic; a wavefunction is a sign and the logarithm of the modulus; automatic differentiation is
Mathlib's derivative.  An exception is `none`.  Particles at one point are excluded by the theorems.
-/
namespace Jaqmc.LegacyPp
open Jaqmc.Geometry Jaqmc.Ecp
open Jaqmc.MolEnergy (triuSum flatten unflatten)
open scoped Classical

variable {n N A : ℕ}

/-! ### Coulomb energy and kinetic energy, hamiltonian.py -/

/-- `jnp.eye`, hamiltonian.py:92-93. -/
noncomputable def eye (i j : Fin n) : ℝ := if i = j then 1 else 0

/-- `r_ae` of `get_dist`, hamiltonian.py:86-89. -/
noncomputable def rAe (r : Fin n → Vec 3) (atoms : Fin A → Vec 3) (i : Fin n) (a : Fin A) : ℝ := Geometry.norm fun k => r i k - atoms a k

/-- `r_ee` of `get_dist`, hamiltonian.py:87-95: ones are added to the zero vectors of the diagonal, which is then multiplied away. -/
noncomputable def rEe (r : Fin n → Vec 3) (i j : Fin n) : ℝ :=
  Geometry.norm (fun k => (r j k - r i k) + eye i j) * (1 - eye i j)

/-- `potential_electron_electron`, hamiltonian.py:166-177. -/
noncomputable def potEE (r : Fin n → Vec 3) : ℝ := triuSum fun i j => 1 / (rEe r i j + eye i j)

/-- `potential_electron_nuclear`, hamiltonian.py:180-189. -/
noncomputable def potEN (r : Fin n → Vec 3) (atoms : Fin A → Vec 3) (Z : Fin A → ℝ) : ℝ := -∑ i, ∑ a, Z a / rAe r atoms i a

/-- `potential_nuclear_nuclear`, hamiltonian.py:192-202. -/
noncomputable def potNN (atoms : Fin A → Vec 3) (Z : Fin A → ℝ) : ℝ :=
  triuSum fun a b => Z b * Z a / Geometry.norm (fun k => atoms b k - atoms a k)

/-- `potential_energy`, hamiltonian.py:205-220. -/
noncomputable def potential (r : Fin n → Vec 3) (atoms : Fin A → Vec 3) (Z : Fin A → ℝ) : ℝ := potEE r + potEN r atoms Z + potNN atoms Z

/-- Entry `i` of a vector (a diagonal entry of a row), hamiltonian.py:158. -/
noncomputable def entry (v : Fin N → ℝ) (i : ℕ) : ℝ := if h : i < N then v ⟨i, h⟩ else 0

/-- Row `i` of `jnp.eye(n)`, hamiltonian.py:126. -/
noncomputable def eyeRow (N i : ℕ) : Fin N → ℝ := fun k => if k.val = i then 1 else 0

/-- The rows `(primal, tangent)` of the chunked implementation, hamiltonian.py:149-158: the identity split into `part` blocks, one
`vjvp` per block, the results stacked. -/
noncomputable def chunkRows (part : ℕ) (F : (Fin N → ℝ) → Fin N → ℝ) (x : Fin N → ℝ) : List ((Fin N → ℝ) × (Fin N → ℝ)) :=
  (List.range part).flatMap fun c => (List.range (N / part)).map fun j => (F x, fderiv ℝ F x (eyeRow N (c * (N / part) + j)))

/-- How the kinetic energy is to be computed, hamiltonian.py:97-101. -/
structure KineticSettings where
  useScan : Bool
  partition : ℕ
  forward : Bool

/-- `local_kinetic_energy`, hamiltonian.py:97-163; `jac` and `lap` are what the forward Laplacian (lapjax) returns. -/
noncomputable def localKinetic (s : KineticSettings) (f : (Fin N → ℝ) → ℝ) (jac : Fin N → ℝ) (lap : ℝ) (x : Fin N → ℝ) : Option ℝ :=
  if s.forward then some (-0.5 * lap - 0.5 * ∑ k, jac k ^ 2)
  else
    let F := Kinetic.grad f
    if s.partition = 1 then
      some (-0.5 * ((∑ i, Kinetic.pd (Kinetic.eye i) (fun y => Kinetic.pd (Kinetic.eye i) f y) x) + ∑ i, F x i ^ 2))
    else if s.partition = 0 then
      let l := Kinetic.linearize F x
      let diag := if s.useScan then ((List.finRange N).map fun i => l.2 (Kinetic.eye i) i).sum
        else (List.finRange N).foldl (fun val i => val + l.2 (Kinetic.eye i) i) 0
      some (-0.5 * diag - 0.5 * ∑ i, l.1 i ^ 2)
    else if N % s.partition = 0 then
      let rows := chunkRows s.partition F x
      some (-0.5 * ((rows.zipIdx.map fun p => entry p.1.1 p.2 ^ 2).sum + (rows.zipIdx.map fun p => entry p.1.2 p.2).sum))
    else none

/-! ### Pseudo-Hamiltonian, ph/hamiltonian.py -/

/-- Radial functions `r ↦ r·v(r)` of one element: local and `L²` (a cubic spline or the piecewise linear interpolation of the table). -/
structure Radial where
  loc : ℝ → ℝ
  l2 : ℝ → ℝ

/-- The contribution of one atom to the mass matrix, ph/hamiltonian.py:42-49, 130-137. -/
noncomputable def massTerm (x : Vec 3) (v : ℝ → ℝ) (R : Vec 3) : Matrix (Fin 3) (Fin 3) ℝ :=
  let r := Ph.norm3 (Ph.rel x R)
  fun i j => -(v r) * (Ph.rel x R i * Ph.rel x R j) / r + (1 : Matrix (Fin 3) (Fin 3) ℝ) i j * (v r * r)

/-- `get_eff_mass`, ph/hamiltonian.py:39-53, 125-138. -/
noncomputable def effMass (x : Vec 3) (ph : List (Vec 3 × Radial)) : Matrix (Fin 3) (Fin 3) ℝ :=
  (ph.map fun a => massTerm x a.2.l2 a.1).foldl (fun carry m => m + carry) 0 + (0.5 : ℝ) • 1

/-- `first_order`, ph/hamiltonian.py:69-83, 153-163: the vector contracted with the gradient. -/
noncomputable def firstOrder (x : Vec 3) (ph : List (Vec 3 × Radial)) (k : Fin 3) : ℝ :=
  (ph.map fun a => a.2.l2 (Ph.norm3 (Ph.rel x a.1)) * 2 / Ph.norm3 (Ph.rel x a.1) * Ph.rel x a.1 k).sum

/-- `zero_order`, ph/hamiltonian.py:85-95, 169-177. -/
noncomputable def zeroOrder (x : Fin n → Vec 3) (ph : List (Vec 3 × Radial)) : ℝ :=
  ∑ e, (ph.map fun a => a.2.loc (Ph.norm3 (Ph.rel (x e) a.1)) / Ph.norm3 (Ph.rel (x e) a.1)).sum

/-- The Cholesky factors, ph/hamiltonian.py:60-62, 146-148, when none is NaN. -/
noncomputable def factors (x : Fin n → Vec 3) (ph : List (Vec 3 × Radial)) : Option (Fin n → Matrix (Fin 3) (Fin 3) ℝ) :=
  if ∀ e, (Ph.cholesky (effMass (x e) ph)).isSome then some fun e => (Ph.cholesky (effMass (x e) ph)).getD 0 else none

/-- `kinetic_ph`, ph/hamiltonian.py:55-99, 140-181: `jac` and `lap` are the gradient and Laplacian lapjax returns for an input whose
derivative is the transposed Cholesky factor, that is for the function of the shifts `y ↦ f (x + L y)` at zero. -/
noncomputable def kineticPh (f : (Fin n → Fin 3 → ℝ) → ℝ) (x : Fin n → Fin 3 → ℝ) (ph : List (Vec 3 × Radial)) (jac : Fin n × Fin 3 → ℝ) (lap : ℝ) :
    Option ℝ :=
  (factors x ph).map fun _ =>
    -lap - (∑ k, jac k ^ 2) + (∑ e, ∑ i, Kinetic.pd (Ph.dir e i) f x * firstOrder (x e) ph i) + zeroOrder x ph

/-! ### Tables of the pseudo-Hamiltonians, ph/data.py -/

/-- `parse_TM_xml`, ph/data.py:63-80, pointwise: the three channels of the file. -/
noncomputable def parseTM (s p d : ℝ) : ℝ × ℝ :=
  let loc := d
  let v0 := s - loc
  let _v1 := p - loc
  (loc + v0, -v0 / 6)

/-- `gen_ph_data_TM`, `gen_ph_data_MG`, ph/data.py:82-106. -/
noncomputable def phData (s p d : ℕ → ℝ) (charge : ℝ) : (ℕ → ℝ) × (ℕ → ℝ) :=
  (fun i => (parseTM (s i) (p i) (d i)).1 + charge, fun i => (parseTM (s i) (p i) (d i)).2)

/-- `PH_ELEMENTS`, ph/data.py:10-31. -/
def phAll : List String := ["Cr", "Mn", "Fe", "Co", "Ni", "Cu", "Zn", "S"]

/-- `ph_info`: the atoms and, as a dictionary, the data of their elements. -/
abbrev Info := List (String × Vec 3) × List (String × Radial)

/-- The loop of `gen_ph_info` and `gen_hph_info`, ph/data.py:178-194, 202-214; `load` is `gen_ph_data` or `gen_hph_data` (`none` is the
`NotImplementedError`) and the interpolation. -/
noncomputable def genInfo (want : String → Prop) (load : String → Option Radial) : List (String × Vec 3) → Info → Option Info
  | [], d => some d
  | (s, x) :: l, d =>
    if want s then
      if (d.2.lookup s).isSome then genInfo want load l (d.1 ++ [(s, x)], d.2)
      else match load s with
        | none => none
        | some v => genInfo want load l (d.1 ++ [(s, x)], d.2 ++ [(s, v)])
    else genInfo want load l d

/-- `gen_ph_info`, ph/data.py:178-194: no choice means every element with data. -/
noncomputable def genPhInfo (atoms : List (String × Vec 3)) (elements : Option (List String)) (load : String → Option Radial) : Option Info :=
  genInfo (fun s => match elements with | none => s ∈ phAll | some l => s ∈ l) load atoms ([], [])

/-- `gen_hph_info`, ph/data.py:202-214: no choice means none. -/
noncomputable def genHphInfo (atoms : List (String × Vec 3)) (elements : Option (List String)) (load : String → Option Radial) : Option Info :=
  genInfo (fun s => match elements with | none => False | some l => s ∈ l) load atoms ([], [])

/-! ### Effective core potentials -/

/-- `legendre`, special.py:7-28. -/
noncomputable def legendre (l : ℕ) (x : ℝ) : Option ℝ :=
  match l with
  | 0 => some 1
  | 1 => some x
  | 2 => some ((3 * x ^ 2 - 1) / 2)
  | 3 => some ((5 * x ^ 3 - 3 * x) / 2)
  | 4 => some ((35 * x ^ 4 - 30 * x ^ 2 + 3) / 8)
  | 5 => some ((63 * x ^ 5 - 70 * x ^ 3 + 15 * x) / 8)
  | 6 => some ((231 * x ^ 6 - 315 * x ^ 4 + 105 * x ^ 2 - 5) / 16)
  | 7 => some ((429 * x ^ 7 - 693 * x ^ 5 + 315 * x ^ 3 - 35 * x) / 16)
  | _ => none

/-- `get_quadrature`, quadrature.py:10-24, `none` is the `KeyError`; the points and weights of quadrature.py:135-199 are the same
lists as those of the new code. -/
noncomputable def getRule (id : Option String) : Option Rule :=
  match id.getD "icosahedron_12" with
  | "octahedron_6" => octahedron 6
  | "octahedron_26" => octahedron 26
  | "icosahedron_12" => icosahedron 12
  | _ => none

/-- `max_l`, hamiltonian.py:334-335, 522-523: the largest number of channels of any element of the dictionary. -/
def maxL (ecp : List (String × PyscfEcp)) : ℕ := (ecp.map fun e => e.2.channels.length).foldl max 0

/-- `ecp_potential_select_core`, hamiltonian.py:279-294, for one atom and distance: the channel is taken by its position `l`. -/
noncomputable def selectCore (p : PyscfEcp) (l : ℕ) (r : ℝ) : ℝ :=
  match p.channels[l]? with
  | some c => radialValue (flattenTerms c.2) r
  | none => 0

/-- A channel without terms stays the number 0, which cannot be stacked with the arrays, hamiltonian.py:283-293. -/
def emptyChannel (p : PyscfEcp) : Prop := ∃ c ∈ p.channels, (c.2.map List.length).sum = 0

/-- The atoms with a potential as `ecp_all` meets them, hamiltonian.py:297-316, 336-347: by element in the order of the list of elements
(a dictionary), the atoms of one element in order. -/
def ecpAtoms (ecp : List (String × PyscfEcp)) (atoms : List (String × Vec 3)) (elements : List String) : List (Vec 3 × PyscfEcp) :=
  elements.eraseDups.flatMap fun s => match ecp.lookup s with
    | some p => (atoms.filter fun a => a.1 == s).map fun a => (a.2, p)
    | none => []

/-- The atoms in order of distance, cut off: `argsort` and `[:, :max_core]`, hamiltonian.py:317-320, 366-368. -/
noncomputable def select {m : ℕ} (maxCore : ℕ) (dist : Fin m → ℝ) : List (Fin m) :=
  ((List.finRange m).mergeSort (fun i j => dist i ≤ dist j)).take maxCore

/-- The ratio of two values, ecp_potential.py:41-42: no conjugate, the sign is real. -/
noncomputable def ratio (psi : (Fin n → Vec 3) → ℝ × ℝ) (r r' : Fin n → Vec 3) : ℝ :=
  (psi r').1 * (psi r).1 * Real.exp ((psi r').2 - (psi r).2)

/-- `numerical_integral_for_loop` divided by `4π`, ecp_potential.py:12-64, hamiltonian.py:349-351, for one electron, atom and `l`. -/
noncomputable def channelIntegral (q : Rule) (psi : (Fin n → Vec 3) → ℝ × ℝ) (r : Fin n → Vec 3) (e : Fin n) (atom : Vec 3) (points : List (Vec 3)) (l : ℕ) : ℝ :=
  let v := fun k => r e k - atom k
  let d := Geometry.norm v
  let values := points.map fun u =>
    ((legendre l (∑ k, u k * (v k / d))).getD 0) * ratio psi r (Function.update r e fun k => u k * d + r e k - v k)
  (List.zipWith (fun x c => x * c) values q.coefs).sum * Real.pi * 4 * (2 * l + 1) / (4 * Real.pi)

/-- `non_local_energy`, hamiltonian.py:324-376 (and `non_local_energy_optim`, 509-565, with the incremental wavefunction giving the same
values).  `nspins` gives the range of electrons; `R e` are the rotations (`sample_orientation`, quadrature.py:63-97, is `rotation`). -/
noncomputable def nonLocalEnergy (psi : (Fin n → Vec 3) → ℝ × ℝ) (ecp : List (String × PyscfEcp)) (atoms : List (String × Vec 3)) (elements : List String)
    (id : Option String) (maxCore : ℕ) (nspins : ℕ × ℕ) (r : Fin n → Vec 3) (R : Fin n → Matrix (Fin 3) (Fin 3) ℝ) : Option ℝ :=
  match getRule id with
  | none => none
  | some q =>
    let l := maxL ecp
    let as := ecpAtoms ecp atoms elements
    if l < 2 ∨ 9 < l ∨ (∃ a ∈ as, emptyChannel a.2) then none
    else
      let dist := fun (e : Fin n) (a : Fin as.length) => Geometry.norm fun k => r e k - (as.get a).1 k
      let loc := ∑ e, ∑ a : Fin as.length, selectCore (as.get a).2 0 (dist e a)
      let nonloc := ∑ e, ((select maxCore (dist e)).map fun a => ∑ k : Fin (l - 1),
        selectCore (as.get a).2 (k + 1) (dist e a) *
          (if e.val < nspins.1 + nspins.2 then channelIntegral q psi r e (as.get a).1 (q.rotated (R e)) k else 0)).sum
      some (nonloc + loc)

/-! ### The total -/

/-- `merge_ph_hph_info`, hamiltonian.py:378-403; a dictionary with the second entry for a repeated key. -/
def mergeInfo : Option Info → Option Info → Option Info
  | none, none => none
  | none, some h => some h
  | some p, none => some p
  | some p, some h => some (p.1 ++ h.1, h.2.foldl (fun d e => Stats.Dict.set d e.1 e.2) p.2)

/-- The keys of an information, hamiltonian.py:442-443. -/
def keys (i : Option Info) : List String := match i with | none => [] | some i => i.2.map (·.1)

/-- `prepare_ph_for_all_atoms`, ph/hamiltonian.py:25-37, 118-122; `none` is the `KeyError`. -/
noncomputable def phAtoms (i : Info) : Option (List (Vec 3 × Radial)) := i.1.mapM fun a => (i.2.lookup a.1).map fun v => (a.2, v)

/-- What `pp_energy` is given, hamiltonian.py:405-415, 439-440. -/
structure Config where
  /-- `pyscf_mol._atom` -/
  atoms : List (String × Vec 3)
  /-- `pyscf_mol._ecp` -/
  ecp : List (String × PyscfEcp)
  phInfo : Option Info
  hphInfo : Option Info
  quadrature : Option String
  maxCore : ℕ
  nspins : ℕ × ℕ
  kinetic : KineticSettings

/-- `ecp_element_list`, hamiltonian.py:451-463. -/
def Config.ecpElements (c : Config) : List String :=
  (c.atoms.filter fun a => (c.ecp.lookup a.1).isSome && !(keys c.phInfo).contains a.1).map (·.1)

/-- One walker: the electrons, the sign and logarithm of the wavefunction, what lapjax returns (for the plain and the pseudo-Hamiltonian
case), the rotations. -/
structure Walker (n : ℕ) where
  x : Fin n → Vec 3
  sign : (Fin n → Vec 3) → ℝ
  f : (Fin n → Vec 3) → ℝ
  jac : Fin (n * 3) → ℝ
  lap : ℝ
  jacPh : Fin n × Fin 3 → ℝ
  lapPh : ℝ
  R : Fin n → Matrix (Fin 3) (Fin 3) ℝ

/-- `local_energy`, hamiltonian.py:223-256, with the positions and charges of all atoms. -/
noncomputable def localEnergy (s : KineticSettings) (phKeys : List String) (info : Option Info) (pos : Fin A → Vec 3) (Z : Fin A → ℝ) (w : Walker n) : Option ℝ :=
  if phKeys ≠ [] then
    if ¬ s.forward then none
    else match info with
      | none => none
      | some i => match phAtoms i with
        | none => none
        | some ph => (kineticPh w.f w.x ph w.jacPh w.lapPh).map fun k => potential w.x pos Z + k
  else (localKinetic s (fun y => w.f (unflatten y)) w.jac w.lap (flatten w.x)).map fun k => potential w.x pos Z + k

/-- `pp_energy`, hamiltonian.py:405-507; `given` is `energy_local`. -/
noncomputable def ppEnergy (c : Config) (given : Option ((Fin n → Vec 3) → ℝ)) (pos : Fin A → Vec 3) (Z : Fin A → ℝ) (w : Walker n) : Option ℝ :=
  let all := keys c.phInfo ++ keys c.hphInfo
  let loc := match given with
    | some g => if all = [] then some (g w.x) else localEnergy c.kinetic all (mergeInfo c.phInfo c.hphInfo) pos Z w
    | none => localEnergy c.kinetic all (mergeInfo c.phInfo c.hphInfo) pos Z w
  let non := if c.ecpElements = [] then some 0
    else nonLocalEnergy (fun y => (w.sign y, w.f y)) c.ecp c.atoms c.ecpElements c.quadrature c.maxCore c.nspins w.x w.R
  match loc, non with
  | some a, some b => some (a + b)
  | _, _ => none

/-- `ecp_energy_optim`, hamiltonian.py:568-660: the same without the hybrid atoms. -/
noncomputable def ecpEnergyOptim (c : Config) (given : Option ((Fin n → Vec 3) → ℝ)) (pos : Fin A → Vec 3) (Z : Fin A → ℝ) (w : Walker n) : Option ℝ :=
  ppEnergy { c with hphInfo := none } given pos Z w

end Jaqmc.LegacyPp
