import Verif.Model.Geometry
import Verif.Model.Wavefunction
/-!
Model of `src/jaqmc/utils/atomic/scf.py` (evaluation of the Hartree-Fock orbitals and Slater determinants), of
`PBCAtomicOrbitalEvaluator.__call__` (`utils/atomic/gto.py:334-363`) and of `src/jaqmc/utils/atomic/pretrain.py`, in exact
arithmetic.  PySCF's results (orbital coefficients and occupations) are arbitrary inputs; the localised atomic orbitals
`chi` are arbitrary functions here (`Model/Gto.lean` models them).
-/
namespace Jaqmc.Scf
open Geometry Matrix
open scoped Classical

/-- `k · v`. -/
noncomputable def dotK (k v : Vec 3) : ℝ := ∑ c, k c * v c

/-- `jnp.exp(1j * x)`. -/
noncomputable def cis (x : ℝ) : ℂ := Complex.exp (Complex.I * (x : ℂ))

/-- `PBCAtomicOrbitalEvaluator.__call__`, gto.py:359-363, for one k-point, coordinate and atomic orbital: the sum over the
list of image translations of `exp(i k·L) chi(r - L)`. -/
noncomputable def blochSum (images : List (Vec 3)) (chi : Vec 3 → ℝ) (k r : Vec 3) : ℂ :=
  (images.map fun L => cis (dotK k L) * ((chi (fun c => r c - L c) : ℝ) : ℂ)).sum

/-- What `mean_field.kernel` leaves behind for `nk` k-points and `nao` atomic orbitals: occupations and coefficient columns
at each k-point (one set for a restricted calculation, one per spin otherwise). -/
inductive MeanField (nk nao : ℕ) where
  | krhf (occ : Fin nk → List ℝ) (coeff : Fin nk → List (Fin nao → ℂ))
  | kuhf (occA occB : Fin nk → List ℝ) (coeffA coeffB : Fin nk → List (Fin nao → ℂ))

/-- `coeff[:, occ > threshold]`: the columns whose occupation exceeds the threshold, in order. -/
noncomputable def occupied {nao : ℕ} (threshold : ℝ) (occ : List ℝ) (coeff : List (Fin nao → ℂ)) : List (Fin nao → ℂ) :=
  ((occ.zip coeff).filter fun p => decide (threshold < p.1)).map Prod.snd

/-- `PeriodicSCF._extract_mo_coeffs`, scf.py:433-482. -/
noncomputable def extract {nk nao : ℕ} : MeanField nk nao → (Fin nk → List (Fin nao → ℂ)) × (Fin nk → List (Fin nao → ℂ))
  | .krhf occ coeff => (fun k => occupied 0.9 (occ k) (coeff k), fun k => occupied 1.1 (occ k) (coeff k))
  | .kuhf occA occB coeffA coeffB => (fun k => occupied 0.9 (occA k) (coeffA k), fun k => occupied 0.9 (occB k) (coeffB k))

/-- `PeriodicSCF` after `run`, scf.py:316-431: the primitive cell (rows), the image translations, the k-points, the atomic
orbitals and the extracted coefficients (`None` before `run`; the methods then raise, which is not modelled). -/
structure Periodic (nk nao : ℕ) where
  latvec : Matrix (Fin 3) (Fin 3) ℝ
  images : List (Vec 3)
  kpts : Fin nk → Vec 3
  chi : Fin nao → Vec 3 → ℝ
  mf : MeanField nk nao

variable {nk nao : ℕ}

/-- The Bloch orbitals at a wrapped position times the phase of the wrapping, scf.py:523-533 and 601-611. -/
noncomputable def Periodic.aos (S : Periodic nk nao) (k : Fin nk) (pos : Vec 3) (a : Fin nao) : ℂ :=
  let wrapped := wrap S.latvec pos
  blochSum S.images (S.chi a) (S.kpts k) wrapped * cis (dotK (S.kpts k) (fun c => pos c - wrapped c))

/-- `aos @ coeffs` for one coordinate: one value per coefficient column. -/
noncomputable def contract {R : Type} [CommSemiring R] (ao : Fin nao → R) (coeffs : List (Fin nao → R)) : List R :=
  coeffs.map fun c => ∑ a, ao a * c a

/-- `max(c.shape[1] for c in coeffs) if coeffs else 0`, scf.py:542-543. -/
def maxCols {R : Type} (coeffs : Fin nk → List (Fin nao → R)) : ℕ := ((List.ofFn fun k => (coeffs k).length)).foldr max 0

/-- `jnp.pad` of one row up to the common length, scf.py:550-556. -/
def padRow (n : ℕ) (row : List ℂ) : List ℂ := row ++ List.replicate (n - row.length) 0

/-- `PeriodicSCF.eval_mos`, scf.py:484-563: for each spin, k-point and position the padded row of orbital values. -/
noncomputable def Periodic.evalMos (S : Periodic nk nao) {n : ℕ} (pos : Fin n → Vec 3) :
    (Fin nk → Fin n → List ℂ) × (Fin nk → Fin n → List ℂ) :=
  let al := (extract S.mf).1
  let be := (extract S.mf).2
  (fun k i => padRow (maxCols al) (contract (S.aos k (pos i)) (al k)),
   fun k i => padRow (maxCols be) (contract (S.aos k (pos i)) (be k)))

/-- `build_orbital_matrix`, scf.py:619-629, one row: the contractions of every k-point, concatenated. -/
noncomputable def orbitalRow (aos : Fin nk → Fin nao → ℂ) (coeffs : Fin nk → List (Fin nao → ℂ)) : List ℂ :=
  (List.ofFn fun k => contract (aos k) (coeffs k)).flatten

/-- `PeriodicSCF.eval_orbitals`, scf.py:565-648, on positions of shape `(batch, nelec, 3)` (the leading axes as one), for
walker `b`.  `pos` is flattened to `(batch * nelec, 3)` and the orbitals are reshaped back to `(nk, batch, nelec, nao)`;
element `e` of walker `b` is element `b * nelec + e` of the flat array.  The reshapes of scf.py:637 and 643 leave the
shape as it is when there is an electron; without electrons the matrix is empty. -/
noncomputable def Periodic.evalOrbitals (S : Periodic nk nao) (nspins : ℕ × ℕ) (pos : ℕ → ℕ → Vec 3) (b : ℕ) :
    List (List ℂ) × List (List ℂ) :=
  let nelec := nspins.1 + nspins.2
  let flat := fun p => pos (p / nelec) (p % nelec)
  let ao := fun e k => S.aos k (flat (b * nelec + e))
  ((List.range nspins.1).map fun e => (orbitalRow (ao e) (extract S.mf).1).take nspins.1,
   (List.range' nspins.1 nspins.2).map fun e => (orbitalRow (ao e) (extract S.mf).2).take nspins.2)

/-- The matrix with the given rows, if they have the length of a square matrix (`slogdet` raises otherwise). -/
def square {R : Type} [Zero R] (rows : List (List R)) : Option (Matrix (Fin rows.length) (Fin rows.length) R) :=
  if rows.all (fun r => decide (r.length = rows.length)) then some (Matrix.of fun i j => (rows[i]).getD j 0) else none

/-- `matrix.shape[-1]` (the row length; 0 for the empty matrix). -/
def lastDim {R : Type} (rows : List (List R)) : ℕ := (rows.head?.map List.length).getD 0

/-- `_slogdet_spin_block`, scf.py:82-99, complex orbitals; `none` is an error. -/
noncomputable def slogdetBlockC (rows : List (List ℂ)) : Option (ℂ × WithBot ℝ) :=
  if lastDim rows = 0 then some (1, ((0 : ℝ) : WithBot ℝ)) else (square rows).map Wf.slogdetC

/-- `_slogdet_spin_block`, scf.py:82-99, real orbitals. -/
noncomputable def slogdetBlock (rows : List (List ℝ)) : Option (ℝ × WithBot ℝ) :=
  if lastDim rows = 0 then some (1, ((0 : ℝ) : WithBot ℝ)) else (square rows).map Wf.slogdet

/-- `_eval_slater_from_orbitals`, scf.py:102-116, complex orbitals. -/
noncomputable def slaterC (m : List (List ℂ) × List (List ℂ)) : Option (ℂ × WithBot ℝ) :=
  (slogdetBlockC m.1).bind fun a => (slogdetBlockC m.2).map fun b => (a.1 * b.1, a.2 + b.2)

/-- `_eval_slater_from_orbitals`, scf.py:102-116, real orbitals. -/
noncomputable def slater (m : List (List ℝ) × List (List ℝ)) : Option (ℝ × WithBot ℝ) :=
  (slogdetBlock m.1).bind fun a => (slogdetBlock m.2).map fun b => (a.1 * b.1, a.2 + b.2)

/-- `logdet + jnp.log(sign)`, scf.py:662; the logarithm of 0 is `-inf`. -/
noncomputable def logOf (p : ℂ × WithBot ℝ) : WithBot ℂ :=
  match p.2 with
  | ⊥ => ⊥
  | (l : ℝ) => if p.1 = 0 then ⊥ else (((l : ℂ) + Complex.log p.1 : ℂ) : WithBot ℂ)

/-- `PeriodicSCF.eval_slater`, scf.py:650-662, for walker `b`. -/
noncomputable def Periodic.evalSlater (S : Periodic nk nao) (nspins : ℕ × ℕ) (pos : ℕ → ℕ → Vec 3) (b : ℕ) :
    Option (WithBot ℂ) :=
  (slaterC (S.evalOrbitals nspins pos b)).map logOf

/-- `PeriodicSCF.get_kpoint_occupancies`, scf.py:703-716. -/
noncomputable def Periodic.occupancies (S : Periodic nk nao) : List (Vec 3 × ℕ × ℕ) :=
  List.ofFn fun k => (S.kpts k, ((extract S.mf).1 k).length, ((extract S.mf).2 k).length)

/-- `PeriodicSCF.get_orbital_kpoints`, scf.py:664-701: the k-point indices repeated by the orbital counts, spin up then
spin down. -/
noncomputable def Periodic.orbitalKpoints (S : Periodic nk nao) : List (Vec 3) :=
  let rep := fun f : Vec 3 × ℕ × ℕ → ℕ => (S.occupancies.map fun o => List.replicate (f o) o.1).flatten
  rep (fun o => o.2.1) ++ rep (fun o => o.2.2)

/-! ### Molecules -/

/-- `MolecularSCF` after `run`, scf.py:129-226: coefficient columns (all orbitals, in the order of PySCF), one set if
`restricted`. -/
structure Molecular (nao : ℕ) where
  chi : Fin nao → Vec 3 → ℝ
  restricted : Bool
  coeffA : List (Fin nao → ℝ)
  coeffB : List (Fin nao → ℝ)

/-- `MolecularSCF.eval_mos`, scf.py:228-268, at one position (a restricted calculation has `coeffA` only, used twice). -/
noncomputable def Molecular.evalMos (S : Molecular nao) (pos : Vec 3) : List ℝ × List ℝ :=
  let ao := fun a => S.chi a pos
  (contract ao S.coeffA, contract ao (if S.restricted then S.coeffA else S.coeffB))

/-- `MolecularSCF.eval_orbitals` and `_extract_spin_blocks`, scf.py:270-298 and 52-79, for walker `b` of a batch of
positions; flattening and reshaping as for `Periodic.evalOrbitals`. -/
noncomputable def Molecular.evalOrbitals (S : Molecular nao) (nspins : ℕ × ℕ) (pos : ℕ → ℕ → Vec 3) (b : ℕ) :
    List (List ℝ) × List (List ℝ) :=
  let nelec := nspins.1 + nspins.2
  let flat := fun p => pos (p / nelec) (p % nelec)
  let mos := fun e => S.evalMos (flat (b * nelec + e))
  ((List.range nspins.1).map fun e => (mos e).1.take nspins.1,
   (List.range' nspins.1 nspins.2).map fun e => (mos e).2.take nspins.2)

/-- `MolecularSCF.eval_slater`, scf.py:300-313, for walker `b`. -/
noncomputable def Molecular.evalSlater (S : Molecular nao) (nspins : ℕ × ℕ) (pos : ℕ → ℕ → Vec 3) (b : ℕ) :
    Option (ℝ × WithBot ℝ) :=
  slater (S.evalOrbitals nspins pos b)

/-! ### Pretraining, pretrain.py -/

/-- `c * x` for a finite `c > 0`, where `⊥` is `-inf`. -/
noncomputable def scaleLog (c : ℝ) (x : WithBot ℝ) : WithBot ℝ := x.map (c * ·)

/-- `make_pretrain_log_amplitude`, pretrain.py:45-89; `none` is the `ValueError`.  Log amplitudes are real (the sampler takes
the real part of a complex one), `⊥` is `-inf`. -/
noncomputable def pretrainLogAmplitude {P X : Type} (logPsi : P → X → WithBot ℝ) (logScf : X → WithBot ℝ) (f : ℝ) :
    Option (P → X → WithBot ℝ) :=
  if f > 1 ∨ f < 0 then none
  else if f ≤ 0 then some logPsi
  else if f ≥ 1 then some fun _ x => logScf x
  else some fun params x => scaleLog (1 - f) (logPsi params x) + scaleLog f (logScf x)

section loss
variable {K : Type} [NormedField K]

/-- `jnp.block([[alpha, 0], [0, beta]])`, pretrain.py:114-121, as rows. -/
def concatTarget (t : List (List K) × List (List K)) : List (List K) :=
  let na := t.1.length
  let nb := t.2.length
  (t.1.map fun row => row ++ List.replicate nb 0) ++ t.2.map fun row => List.replicate na 0 ++ row

/-- `jnp.mean(jnp.abs(concat_target - orbitals) ** 2)`, pretrain.py:113-122 (`full_det`): the target is broadcast over the
determinants; `orbitals` has shape `(ndets, n, n)`. -/
noncomputable def lossFull {n ndets : ℕ} (t : List (List K) × List (List K)) (o : Fin ndets → Matrix (Fin n) (Fin n) K) : ℝ :=
  (∑ k, ∑ i : Fin n, ∑ j : Fin n, ‖((concatTarget t).getD i []).getD j 0 - o k i j‖ ^ 2) / (ndets * n * n : ℝ)

/-- `jnp.mean(jnp.abs(t - o) ** 2)` for a `(m, m)` target and an `(n, n)` matrix with the broadcasting of numpy; `none` is an
incompatible shape or the mean of an empty array (NaN). -/
noncomputable def meanBroadcast {n : ℕ} (t : List (List K)) (o : Matrix (Fin n) (Fin n) K) : Option ℝ :=
  if t.length = 0 ∨ n = 0 then none
  else if t.length = n then some ((∑ i : Fin n, ∑ j : Fin n, ‖(t.getD i []).getD j 0 - o i j‖ ^ 2) / (n * n : ℝ))
  else if t.length = 1 then some ((∑ i, ∑ j, ‖(t.getD 0 []).getD 0 0 - o i j‖ ^ 2) / (n * n : ℝ))
  else if n = 1 then some ((∑ i : Fin t.length, ∑ j : Fin t.length, ∑ a, ‖(t.getD i []).getD j 0 - o a a‖ ^ 2) / (t.length * t.length : ℝ))
  else none

/-- The loss without `full_det`, pretrain.py:123-125: `zip(target, orbitals)` pairs the two spin blocks with the first two
entries along the leading axis of `orbitals`, which for every network of the package is the axis of the determinants. -/
noncomputable def lossSplit {n ndets : ℕ} (t : List (List K) × List (List K)) (o : Fin ndets → Matrix (Fin n) (Fin n) K) : Option ℝ :=
  (([t.1, t.2].zip (List.ofFn o)).map fun p => meanBroadcast p.1 p.2).foldl (fun acc x => acc.bind fun a => x.map (a + ·)) (some 0)

end loss

end Jaqmc.Scf
