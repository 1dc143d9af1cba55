import Verif.Model.Hall
import Verif.Model.Density
import Mathlib.Analysis.SpecialFunctions.Trigonometric.Inverse
import Mathlib.Data.Nat.Factorial.Basic
import Mathlib.Data.Nat.Choose.Basic
/-!
Model of the estimators on the Haldane sphere: `app/hall/estimator/{pair_correlation,one_rdm,penalized_loss}.py` and
`app/hall/hamiltonian.py`.  Exact real arithmetic.
-/
namespace Jaqmc.HallStats
open Jaqmc.Hall
open scoped Classical BigOperators

/-! ### One-body reduced density matrix -/

/-- `jnp.clip(x, lo, hi)`. -/
noncomputable def clip (lo hi x : ℝ) : ℝ := min hi (max lo x)

/-- `make_monopole_harm(q, ell, m)`, one_rdm.py:38-78, with `p = ell - q`, `r = ell + q`, `t = ell + m`, `a = ell - m` (naturals with
`p + r = t + a = 2 ell`, which the half-integers of the code are exactly); `s` runs over `np.arange(ell - m + 1)`. -/
noncomputable def harm (p r t a : ℕ) (e : Angles) : ℂ :=
  let ell : ℝ := ((t + a : ℕ) : ℝ) / 2
  let m : ℝ := ((t : ℝ) - a) / 2
  let q : ℝ := ((r : ℝ) - p) / 2
  let normFactor : ℝ := Real.sqrt ((2 * ell + 1) / (4 * Real.pi) * ((a.factorial : ℝ) * (t.factorial : ℝ)) / ((p.factorial : ℝ) * (r.factorial : ℝ)))
  let x := clip (-1 + 1e-4) (1 - 1e-4) (Real.cos e.1)
  let thetaPart : ℝ := ∑ s ∈ Finset.range (a + 1), (-1) ^ (a - s) * (p.choose s : ℝ) * (r.choose (a - s) : ℝ)
      * (1 - x) ^ (ell - s - (m + q) / 2) * (1 + x) ^ ((s : ℝ) + (m + q) / 2)
  ((normFactor / 2 ^ ell * thetaPart : ℝ) : ℂ) * Complex.exp (Complex.I * m * e.2)

/-- `OneRDM._orbitals`, one_rdm.py:115-124: orbital `t` has `q = ell = Q = flux/2` and `m = -Q + t`. -/
noncomputable def orbital (flux t : ℕ) : Angles → ℂ := harm 0 flux t (flux - t)

/-- `_uniform_sample_sphere`, one_rdm.py:81-93, as a function of the two uniform draws. -/
noncomputable def sampleSphere (u : ℝ × ℝ) : Angles := (Real.arccos u.1, u.2)

/-- `jnp.exp(logpsi_prime - logpsi)`, one_rdm.py:157; `none` is the logarithm of zero, `-inf`.  At a node of the current configuration the code has
`nan`, the model 0. -/
noncomputable def ratio : Option ℂ → Option ℂ → ℂ
  | some a, some b => Complex.exp (a - b)
  | _, _ => 0

/-- `OneRDM.evaluate_single_walker`, one_rdm.py:126-171, at entry `(i, j)`; `u` are the two uniform draws. -/
noncomputable def oneRdm {n : ℕ} (flux : ℕ) (logpsi : (Fin n → Angles) → Option ℂ) (e : Fin n → Angles) (u : ℝ × ℝ) (i j : ℕ) : ℂ :=
  let r := sampleSphere u
  ((4 * Real.pi : ℝ) : ℂ) * ∑ a, ratio (logpsi (Function.update e a r)) (logpsi e) * orbital flux i (e a) * (starRingEnd ℂ) (orbital flux j r)

/-- `OneRDM.reduce` and `finalize_stats`, one_rdm.py:173-198, over `S` steps of `W` walkers (all devices together; no `nan` values, so `nanmean` is the
mean). -/
noncomputable def rdmDigest {S W : ℕ} (value : Fin S → Fin W → ℂ) : ℂ := (∑ s, (∑ w, value s w) / W) / S

/-- `one_rdm:trace`, one_rdm.py:197. -/
noncomputable def rdmTrace (flux : ℕ) (rdm : ℕ → ℕ → ℂ) : ℂ := ∑ i ∈ Finset.range (flux + 1), rdm i i

/-! ### Pair correlation -/

/-- The Cartesian coordinates `[sin θ cos φ, sin θ sin φ, cos θ]`, pair_correlation.py:59-63 and hamiltonian.py:49-51. -/
noncomputable def xyz (e : Angles) : Fin 3 → ℝ := ![Real.sin e.1 * Real.cos e.2, Real.sin e.1 * Real.sin e.2, Real.cos e.1]

/-- `cos12`, pair_correlation.py:66 and hamiltonian.py:52. -/
noncomputable def cos12 (e f : Angles) : ℝ := ∑ k, xyz e k * xyz f k

/-- `theta12`, pair_correlation.py:68. -/
noncomputable def theta12 (e f : Angles) : ℝ := Real.arccos (clip (-1) 1 (cos12 e f))

/-- `jnp.triu_indices(n, 1)`. -/
def triuIndices (n : ℕ) : List (Fin n × Fin n) := (List.finRange n).flatMap fun i => ((List.finRange n).filter fun j => i < j).map fun j => (i, j)

/-- `jnp.histogram(a, bins, range, weights)[0]` at bin `k`; samples are pairs of a value and its weight. -/
noncomputable def whist (edges : List ℝ) (samples : List (ℝ × ℝ)) (k : ℕ) : ℝ :=
  ((samples.filter fun s => Stats.binIndex edges s.1 = k + 1).map Prod.snd).sum

/-- What one evaluation adds to bin `k` of the state, pair_correlation.py:47-77 (in the code the weight of a pair at angle 0 or π is infinite, in the model
zero). -/
noncomputable def pairIncrement {n : ℕ} (bins : ℕ) (batch : List (Fin n → Angles)) (k : ℕ) : ℝ :=
  whist (Density.edges bins (0, Real.pi))
    ((batch.flatMap fun e => (triuIndices n).map fun p => theta12 (e p.1) (e p.2)).map fun t => (t, 1 / Real.sin t)) k
    * 4 * bins / batch.length / (n : ℝ) ^ 2 / Real.pi

/-- Bin `k` of the state after some steps on one device: `init`, pair_correlation.py:44-45, and one increment per step. -/
noncomputable def pairState {n : ℕ} (bins : ℕ) (steps : List (List (Fin n → Angles))) (k : ℕ) : ℝ :=
  steps.foldl (fun s b => s + pairIncrement bins b k) 0

/-- The length of the part of a state of length `L` on each of `D` devices: the state is partitioned along its first axis
(workflow/stage/sampling.py:56, 234-237); `none` is an error. -/
def shardLen (D L : ℕ) : Option ℕ := if D ∣ L then some (L / D) else none

/-- The length of a sum of arrays of lengths `a` and `b`; `none` is an error. -/
def broadcastLen (a b : ℕ) : Option ℕ := if a = b then some a else if a = 1 then some b else if b = 1 then some a else none

/-- The length of the state after a step on `D` devices, pair_correlation.py:77 under `shard_map`. -/
def pairStepLen (D bins L : ℕ) : Option ℕ := (shardLen D L).bind fun l => (broadcastLen l bins).map (D * ·)

end Jaqmc.HallStats
