import Verif.Model.TrainLoss
/-! Specification for C146. -/
namespace Jaqmc.Average.Spec

variable {V : Type} {p : Nat}

/-- Everywhere in the region `S` of parameters the wavefunction is nearly exact: it vanishes outside the configurations `W` and nowhere in them, and there its local energy is that of
an eigenfunction, `E0`, up to `a` in the real and `b` in the imaginary part, and the derivatives of `log ψ` are at most `G`. -/
structure NearExact (W : Set V) (S : Set (Fin p → ℝ)) (ψ : (Fin p → ℝ) → V → ℂ) (g : (Fin p → ℝ) → Fin p → V → ℂ) (e : (Fin p → ℝ) → V → ℂ) (E0 a b G : ℝ) : Prop where
  nodes : ∀ θ ∈ S, ∀ x, ψ θ x ≠ 0 ↔ x ∈ W
  energy : ∀ θ ∈ S, ∀ x ∈ W, |(e θ x).re - E0| ≤ a
  phase : ∀ θ ∈ S, ∀ x ∈ W, |(e θ x).im| ≤ b
  score : ∀ θ ∈ S, ∀ x ∈ W, ∀ k, ‖g θ k x‖ ≤ G

end Jaqmc.Average.Spec
