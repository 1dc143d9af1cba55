import Mathlib.Analysis.SpecialFunctions.Exp
import Mathlib.Analysis.Complex.Exponential
import Mathlib.Order.WithBot
import Mathlib.Data.Option.Basic
import Verif.Model.Wavefunction
/-!
What "antisymmetric" means, in terms of the outputs of a wavefunction.
-/
namespace Jaqmc.Wf.Spec

/-- A relabelling of the electrons that never exchanges a spin-up electron (the first `nu`) with a spin-down one. -/
def SameSpin (nu : ℕ) {n : ℕ} (σ : Equiv.Perm (Fin n)) : Prop := ∀ i, (σ i).val < nu ↔ i.val < nu

/-- The value `sign * exp(log)` reported as a sign and a logarithm (`⊥` is `-inf`, `none` is NaN). -/
noncomputable def value : Option ℝ → Option (WithBot ℝ) → Option ℝ
  | some _, some ⊥ => some 0
  | some s, some (l : ℝ) => some (s * Real.exp l)
  | _, _ => none

/-- The value `exp(logpsi)` reported as a complex logarithm. -/
noncomputable def valueC : Option (WithBot ℂ) → Option ℂ
  | some ⊥ => some 0
  | some (l : ℂ) => some (Complex.exp l)
  | none => none

/-- The outputs of a real wavefunction before (`o`) and after (`o'`) an operation that multiplies the wavefunction by
`ε`, where `ε = 1` or `ε = -1`: the logarithms are the same, every sign is multiplied by `ε` (NaN stays NaN). -/
structure Multiplied {k : ℕ} (ε : ℝ) (o o' : RealOut k) : Prop where
  logpsi : o'.logpsi = o.logpsi
  sign : o'.signLogpsi = o.signLogpsi.map (fun s => ε * s)
  absLogdets : o'.absLogdets = o.absLogdets
  signLogdets : ∀ i, o'.signLogdets i = ε * o.signLogdets i

/-- The same for a complex wavefunction and a complex number `ε` of modulus 1: the value `exp(logpsi)` is multiplied by
`ε`, so the real part of `logpsi` is unchanged. -/
structure MultipliedC {k : ℕ} (ε : ℂ) (o o' : ComplexOut k) : Prop where
  value : valueC o'.logpsi = (valueC o.logpsi).map (fun z => ε * z)
  re : o'.logpsi.map (WithBot.map Complex.re) = o.logpsi.map (WithBot.map Complex.re)
  absLogdets : o'.absLogdets = o.absLogdets
  signLogdets : ∀ i, o'.signLogdets i = ε * o.signLogdets i

/-- Translation of every particle by the same vector. -/
def shift {n d : ℕ} (t : Geometry.Vec d) (r : Fin n → Geometry.Vec d) : Fin n → Geometry.Vec d := fun i k => r i k + t k

/-- Translation of particle `i` only. -/
def shiftOne {n d : ℕ} (i : Fin n) (t : Geometry.Vec d) (r : Fin n → Geometry.Vec d) : Fin n → Geometry.Vec d :=
  fun j k => if j = i then r j k + t k else r j k

end Jaqmc.Wf.Spec
