import Mathlib.Analysis.SpecialFunctions.Log.Basic
import Mathlib.Analysis.Complex.Exponential
import Mathlib.Analysis.Complex.Norm
/-!
Model of `src/jaqmc/estimator/spin.py` in exact arithmetic.
-/
namespace Jaqmc.SpinSquared

variable {nu nd : ℕ} {X : Type}

/-- `init`, spin.py:59-67: the electrons of the majority and minority spin; ties: the minority is up. -/
def majority (nu nd : ℕ) : List (Fin (nu + nd)) :=
  if nu > nd then (List.finRange (nu + nd)).filter (fun i => (i : ℕ) < nu)
  else (List.finRange (nu + nd)).filter (fun i => nu ≤ (i : ℕ))

/-- `init`, spin.py:59-67. -/
def minority (nu nd : ℕ) : List (Fin (nu + nd)) :=
  if nu > nd then (List.finRange (nu + nd)).filter (fun i => nu ≤ (i : ℕ))
  else (List.finRange (nu + nd)).filter (fun i => (i : ℕ) < nu)

/-- `_sz`, spin.py:70. -/
noncomputable def sz (nu nd : ℕ) : ℝ := |(nu : ℝ) - (nd : ℝ)| * 0.5

/-- `_swap_one`, spin.py:145-148: the index array with two entries set one after the other, then gathered. -/
def swapOne {N : ℕ} (electrons : Fin N → X) (minIdx majIdx : Fin N) : Fin N → X :=
  let perm := Function.update (id : Fin N → Fin N) minIdx majIdx
  let perm := Function.update perm majIdx minIdx
  fun i => electrons (perm i)

/-- The largest logarithm, the shift of `logsumexp` (any shift gives the same result). -/
noncomputable def shiftOf : List ℝ → ℝ
  | [] => 0
  | x :: xs => xs.foldl max x

/-- `jax.scipy.special.logsumexp(a, b=b, return_sign=True)` for complex weights: the logarithm of the modulus of
`Σ b exp(a)` and its phase, which is 0 for a vanishing sum (its logarithm is then `-inf` and the exponential 0; here the phase
alone makes the product 0). -/
noncomputable def logsumexp (ab : List (ℝ × ℂ)) : ℝ × ℂ :=
  let m := shiftOf (ab.map (·.1))
  let s := (ab.map fun p => p.2 * (Real.exp (p.1 - m) : ℂ)).sum
  (Real.log ‖s‖ + m, s / (‖s‖ : ℂ))

/-- `_ratio_sum_one_electron`, spin.py:102-134. `wf` is `phase_logpsi`; a vanishing wavefunction has phase 0. -/
noncomputable def ratioSumOne (wf : (Fin (nu + nd) → X) → ℂ × ℝ) (electrons : Fin (nu + nd) → X) (minIdx : Fin (nu + nd)) : ℂ :=
  let orig := wf electrons
  let ab := (majority nu nd).map fun j =>
    let o := wf (swapOne electrons minIdx j)
    (o.2 - orig.2, o.1 * (starRingEnd ℂ) orig.1)
  let ls := logsumexp ab
  1 - ls.2 * (Real.exp ls.1 : ℂ)

/-- `evaluate_single_walker`, spin.py:74-100. -/
noncomputable def evaluate (wf : (Fin (nu + nd) → X) → ℂ × ℝ) (electrons : Fin (nu + nd) → X) : ℂ :=
  (sz nu nd * (sz nu nd + 1) : ℝ) + ((minority nu nd).map (ratioSumOne wf electrons)).sum

end Jaqmc.SpinSquared
