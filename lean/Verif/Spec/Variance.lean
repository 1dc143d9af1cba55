import Verif.Spec.Average
import Verif.Model.Average
import Mathlib.Probability.Moments.Variance
/-!
What C140 needs to say: walkers that have nothing to do with each other.
-/
namespace Jaqmc.Average.Spec
open MeasureTheory ProbabilityTheory Jaqmc.Sampler

variable {V N Ω Key : Type} [MeasurableSpace V] [MeasurableSpace N] [MeasurableSpace Ω] {n d : ℕ}

/-- The walkers start independently, they draw independently, and no two devices share a key. -/
structure Separate (P : Measure Ω) (steps : ℕ) (g : RandomRng Ω Key N n) (keys : ℕ → Fin d → Key) (x₀ : Ω → Fin d → Batch Unit n V) (T : ℕ) : Prop where
  draws : iIndepFun (fun (q : Key × Fin n) ω => (g.noise q.1 q.2 ω, g.uniform q.1 q.2 ω)) P
  starts : iIndepFun (fun (q : Fin d × Fin n) ω => x₀ ω q.1 () q.2) P
  together : IndepFun (fun ω (q : Fin d × Fin n) => x₀ ω q.1 () q.2) (fun ω (q : Key × Fin n) => (g.noise q.1 q.2 ω, g.uniform q.1 q.2 ω)) P
  apart : ∀ a b, a ≠ b → List.Disjoint (keysUsed g.split3 (fun t => keys t a) steps T) (keysUsed g.split3 (fun t => keys t b) steps T)

end Jaqmc.Average.Spec
