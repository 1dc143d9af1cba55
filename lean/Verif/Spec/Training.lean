import Verif.Spec.Average
import Verif.Model.Average
/-!
What C142 needs to say: the circumstances of a training run.
-/
namespace Jaqmc.Average.Spec
open MeasureTheory ProbabilityTheory Jaqmc.Sampler

variable {V N Ω Key : Type} [MeasurableSpace V] [MeasurableSpace N] [MeasurableSpace Ω] {n d : ℕ}

/-- `T` sampling steps from walkers placed anywhere, all at one place or drawn together in any way, as long as this was done before the first draw: the draws are independent
of each other and of the starting places, no device uses a key twice, and no two devices share one. -/
structure Draws (P : Measure Ω) (ν : Measure N) (steps : ℕ) (g : RandomRng Ω Key N n) (keys : ℕ → Fin d → Key) (x₀ : Ω → Fin d → Batch Unit n V) (T : ℕ) : Prop where
  each : ∀ i, Independent P ν (fun k => g.noise k i) (fun k => g.uniform k i)
  all : iIndepFun (fun (q : Key × Fin n) ω => (g.noise q.1 q.2 ω, g.uniform q.1 q.2 ω)) P
  measurable : ∀ a i, Measurable fun ω => x₀ ω a () i
  starts : IndepFun (fun ω (q : Fin d × Fin n) => x₀ ω q.1 () q.2) (fun ω (q : Key × Fin n) => (g.noise q.1 q.2 ω, g.uniform q.1 q.2 ω)) P
  fresh : ∀ a, (keysUsed g.split3 (fun t => keys t a) steps T).Nodup
  apart : ∀ a b, a ≠ b → List.Disjoint (keysUsed g.split3 (fun t => keys t a) steps T) (keysUsed g.split3 (fun t => keys t b) steps T)

end Jaqmc.Average.Spec
