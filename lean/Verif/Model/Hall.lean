import Verif.Model.Wavefunction
import Mathlib.Analysis.SpecialFunctions.Pow.Real
/-!
Model of the wavefunctions on the Haldane sphere: `app/hall/wavefunction/{mhpo,jastrow,laughlin,free}.py`.
An electron is a pair of angles `(theta, phi)`.  Exact arithmetic; the float powers `u ** (Q + m)` have the exact integer
exponents `t` and `2Q - t` for `m = -Q + t`, and are modelled as natural powers.
-/
namespace Jaqmc.Hall
open Wf Matrix
open scoped Classical BigOperators

/-- `(theta, phi)`. -/
abbrev Angles := ℝ × ℝ

/-- `u = cos(theta/2) * exp(0.5j * phi)`, mhpo.py:59, 144 and laughlin.py:37. -/
noncomputable def uOf (e : Angles) : ℂ := (Real.cos (e.1 / 2) : ℂ) * Complex.exp (0.5 * Complex.I * e.2)

/-- `v = sin(theta/2) * exp(-0.5j * phi)`, mhpo.py:60, 145 and laughlin.py:38. -/
noncomputable def vOf (e : Angles) : ℂ := (Real.sin (e.1 / 2) : ℂ) * Complex.exp (-0.5 * Complex.I * e.2)

/-- The Cartesian features `[cos theta, sin theta cos phi, sin theta sin phi]`, mhpo.py:124-131 and jastrow.py:58-66. -/
noncomputable def cart (e : Angles) : Fin 3 → ℝ :=
  ![Real.cos e.1, Real.sin e.1 * Real.cos e.2, Real.sin e.1 * Real.sin e.2]

section
variable {nu nd : ℕ}

/-- `SphericalJastrow._chord_distance`, jastrow.py:57-69: distances of `x_j - x_i`, shifted by 1 on the diagonal and masked. -/
noncomputable def chord {n : ℕ} (e : Fin n → Angles) (i j : Fin n) : ℝ :=
  let eye := if i = j then (1 : ℝ) else 0
  Geometry.norm (fun k => cart (e j) k - cart (e i) k + eye) * (1 - eye)

/-- `SphericalJastrow.__call__`, jastrow.py:24-55 (empty blocks contribute empty sums). -/
noncomputable def sphericalJastrow (alphaPar alphaAnti : ℝ) (e : Fin (nu + nd) → Angles) : ℝ :=
  (∑ i : Fin nu, ∑ j : Fin nd, -(0.5 * alphaAnti ^ 2) / (alphaAnti + chord e (Fin.castAdd nd i) (Fin.natAdd nu j)))
    + (triuSum (fun i j : Fin nu => -(0.25 * alphaPar ^ 2) / (alphaPar + chord e (Fin.castAdd nd i) (Fin.castAdd nd j)))
      + triuSum (fun i j : Fin nd => -(0.25 * alphaPar ^ 2) / (alphaPar + chord e (Fin.natAdd nu i) (Fin.natAdd nu j))))

/-- `scipy.special.comb(2Q, Q - m)` for `m = -Q + t`: `comb(2Q, 2Q - t)`. -/
noncomputable def normFactor (flux t : ℕ) : ℝ := Real.sqrt (Nat.choose flux (flux - t))

/-- Parameters and options of `MHPO`, mhpo.py:67-117; `flux` is `2Q`, `perElec` is `flux_per_elec`. -/
structure MHPO where
  psi : PsiConfig
  input : Dense
  layers : List PsiLayer
  flux : ℕ
  perElec : ℕ
  ndets : ℕ
  re : OrbParams
  im : OrbParams
  alphaPar : ℝ
  alphaAnti : ℝ

/-- `reduced_flux`, mhpo.py:105 (defined for `flux ≥ flux_per_elec * (N - 1)`). -/
def MHPO.reduced (W : MHPO) (n : ℕ) : ℕ := W.flux - W.perElec * (n - 1)

/-- `MonopoleOrbitals.__call__`, mhpo.py:46-64: output index `(m, orbital, det)` of the dense layers is column
`(t * n + orbital) * ndets + det` (dense layers with bias). -/
noncomputable def monopoleOrbitals (W : MHPO) (h : Feat (Fin (nu + nd))) (e : Fin (nu + nd) → Angles) :
    Fin W.ndets → Matrix (Fin (nu + nd)) (Fin (nu + nd)) ℂ :=
  let Q2 := W.reduced (nu + nd)
  let out := (Q2 + 1) * (nu + nd) * W.ndets
  let re := splitDense W.re true out h
  let im := splitDense W.im true out h
  fun k i j => ∑ t ∈ Finset.range (Q2 + 1),
    ((re.val i ((t * (nu + nd) + j) * W.ndets + k) : ℂ) + Complex.I * (im.val i ((t * (nu + nd) + j) * W.ndets + k) : ℂ))
      * ((normFactor Q2 t : ℂ) * uOf (e i) ^ t * vOf (e i) ^ (Q2 - t))

/-- `element[i, j]`, mhpo.py:146: `u_j * v_i - u_i * v_j + δ_ij`. -/
noncomputable def element {n : ℕ} (e : Fin n → Angles) (i j : Fin n) : ℂ :=
  uOf (e j) * vOf (e i) - uOf (e i) * vOf (e j) + if i = j then 1 else 0

/-- The logarithm of the whole Jastrow factor, mhpo.py:140-147 (`jnp.log` is the principal branch; at `element = 0` the code
has `-inf`). -/
noncomputable def MHPO.jastrow (W : MHPO) (e : Fin (nu + nd) → Angles) : ℂ :=
  (sphericalJastrow W.alphaPar W.alphaAnti e : ℂ)
    + if 0 < W.perElec then (∑ i, ∑ j, if i < j then Complex.log (element e i j) else 0) * (W.perElec : ℂ) else 0

/-- The features of one electron and the backbone, mhpo.py:121-134. -/
noncomputable def MHPO.features (W : MHPO) (e : Fin (nu + nd) → Angles) : Feat (Fin (nu + nd)) :=
  psiformer W.psi W.input W.layers ⟨3, fun i k => if h : k < 3 then cart (e i) ⟨k, h⟩ else 0⟩

/-- `orbitals = exp(jastrow / N) * orbitals`, mhpo.py:137-149. -/
noncomputable def MHPO.orbitals (W : MHPO) (e : Fin (nu + nd) → Angles) :
    Fin W.ndets → Matrix (Fin (nu + nd)) (Fin (nu + nd)) ℂ :=
  fun k i j => Complex.exp (W.jastrow e / ((nu + nd : ℕ) : ℂ)) * monopoleOrbitals W (W.features e) e k i j

/-- `MHPO.__call__`, mhpo.py:119-156: the slogdet block is that of `LogDet` on complex matrices. -/
noncomputable def MHPO.call (W : MHPO) (e : Fin (nu + nd) → Angles) : Option (WithBot ℂ) := (logDetC (W.orbitals e)).logpsi

end

/-! ### Laughlin -/

/-- `Laughlin._full_orbitals`, laughlin.py:46-51, with `2 * Q1 = N - 1` (otherwise the matrix is not square and `slogdet`
raises): row `i`, column `t` is `u_i^t v_i^(2 Q1 - t)` times the product of row `i` of `element`. -/
noncomputable def laughlinOrbitals {n : ℕ} (u v : Fin n → ℂ) : Matrix (Fin n) (Fin n) ℂ :=
  fun i t => u i ^ (t : ℕ) * v i ^ (n - 1 - t) * ∏ j, (u i * v j - u j * v i + if i = j then 1 else 0)

/-- `Laughlin.setup` and `__call__`, laughlin.py:30-44: `2 * Q1 = flux - 2 * cf_flux * (N - 1)`; `none` for the error of
`slogdet` on a matrix that is not square.  (A single matrix: the sum over determinants has one term.) -/
noncomputable def laughlin {n : ℕ} (flux cfFlux : ℕ) (e : Fin n → Angles) : Option (Option (WithBot ℂ)) :=
  if (flux : ℤ) - 2 * cfFlux * (n - 1) + 1 = n then
    some (logDetC (fun _ : Fin 1 => laughlinOrbitals (fun i => uOf (e i)) (fun i => vOf (e i)))).logpsi
  else none

/-! ### Free electrons -/

/-- One orbital `(2ℓ, 2m)` of the shell `q = flux/2` (twice the quantum numbers, which are half-integers). -/
structure Orbital where
  ell2 : ℤ
  m2 : ℤ
  deriving DecidableEq

/-- The loop of `Free.setup`, free.py:66-76, in doubled quantum numbers: fill `n` orbitals from the top of each shell. -/
def fillShells : ℕ → ℤ → ℤ → List Orbital
  | 0, _, _ => []
  | n + 1, ell2, m2 =>
    ⟨ell2, m2⟩ :: if m2 - 2 < -ell2 then fillShells n (ell2 + 2) (ell2 + 2) else fillShells n ell2 (m2 - 2)

/-- `Free.setup`, free.py:65-76. -/
def freeOrbitals (flux : ℕ) (n : ℕ) : List Orbital := fillShells n flux flux

/-- `make_monopole_harm(q, ell, m)`, free.py:17-47, with `q = q2/2` etc.  `scipy.special.comb(n, s)` is `0` for `s > n`; where its
argument is a natural number it is `Nat.choose`; `ell - q` and `ell + q` are naturals for the orbitals of `Free`, and
`ell - m - s` is a natural for `s ≤ ell - m`.  `x ** y` for a real `x > 0` is `Real.rpow` (at a pole `1 - x = 0` or `1 + x = 0` a
negative exponent gives `inf * 0` in the code: not modelled). -/
noncomputable def monopoleHarm (q2 : ℤ) (o : Orbital) (e : Angles) : ℂ :=
  let a := ((o.ell2 - o.m2) / 2).toNat
  let lmq := ((o.ell2 - q2) / 2).toNat
  let lpq := ((o.ell2 + q2) / 2).toNat
  let lpm := ((o.ell2 + o.m2) / 2).toNat
  let x := Real.cos e.1
  let norm := Real.sqrt ((o.ell2 + 1) / (4 * Real.pi) * (a.factorial * lpm.factorial) / (lmq.factorial * lpq.factorial))
  let theta := ∑ s ∈ Finset.range (a + 1), (-1 : ℝ) ^ (a - s) * (lmq.choose s) * (lpq.choose (a - s))
    * (1 - x) ^ ((o.ell2 : ℝ) / 2 - s - ((o.m2 + q2 : ℤ) : ℝ) / 4) * (1 + x) ^ ((s : ℝ) + ((o.m2 + q2 : ℤ) : ℝ) / 4)
  ((norm / (2 : ℝ) ^ ((o.ell2 : ℝ) / 2) * theta : ℝ) : ℂ) * Complex.exp (Complex.I * ((o.m2 : ℝ) / 2 : ℝ) * e.2)

/-- `Free.__call__`, free.py:78-84: a single matrix `[orbital, electron]`; `Y` is the table of monopole harmonics. -/
noncomputable def free {n : ℕ} (Y : Orbital → Angles → ℂ) (flux : ℕ) (e : Fin n → Angles) : Option (WithBot ℂ) :=
  (logDetC (fun _ : Fin 1 => (Matrix.of fun (a : Fin n) (i : Fin n) => Y ((freeOrbitals flux n).getD a ⟨0, 0⟩) (e i)))).logpsi

end Jaqmc.Hall
