import Verif.Spec.LegacyLoss
import Verif.Props.SpinSquared
import Mathlib.MeasureTheory.Constructions.Pi
import Mathlib.MeasureTheory.Integral.Bochner.Basic
/-! C104: the local values of the spin penalty of `jaqmc_legacy.loss.spin_penalty`. -/
namespace Jaqmc.LegacyLoss.Props
open Jaqmc.LegacyLoss Jaqmc.LegacyLoss.Spec Jaqmc.SpinSquared Jaqmc.SpinSquared.Spec Jaqmc.SpinSquared.Props MeasureTheory

variable {nu nd : ℕ} {X : Type}

/-- The value of the wavefunction from sign and logarithm. -/
noncomputable def value (wf : (Fin (nu + nd) → X) → ℝ × ℝ) (r : Fin (nu + nd) → X) : ℝ := (wf r).1 * Real.exp (wf r).2

theorem swapCoord_eq {N : ℕ} (x : Fin N → X) (i j : Fin N) : swapCoord x i j = x ∘ Equiv.swap i j := swapOne_eq x i j

/-- The sum over the exchanges of one minority electron, written out. -/
theorem side_eq (wf : (Fin (nu + nd) → X) → ℝ × ℝ) (r : Fin (nu + nd) → X) (i : Fin (nu + nd)) :
    sidePermute wf r i = 1 - ((idxMajor nu nd).map fun j =>
      (wf (r ∘ Equiv.swap i j)).1 * (wf r).1 * Real.exp ((wf (r ∘ Equiv.swap i j)).2 - (wf r).2)).sum := by
  unfold sidePermute
  dsimp only
  generalize shiftOf _ = m
  simp only [swapCoord_eq]
  induction idxMajor nu nd with
  | nil => simp
  | cons j l ih =>
    simp only [List.map_cons, List.zipWith_cons_cons, List.sum_cons] at ih ⊢
    have hm : Real.exp ((wf (r ∘ Equiv.swap i j)).2 - (wf r).2 - m) * Real.exp m = Real.exp ((wf (r ∘ Equiv.swap i j)).2 - (wf r).2) := by
      rw [← Real.exp_add, sub_add_cancel]
    linear_combination ih - (wf (r ∘ Equiv.swap i j)).1 * (wf r).1 * hm

/-- C104: the legacy value is the value of the new estimator for the same (real) wavefunction. -/
theorem c104_same (wf : (Fin (nu + nd) → X) → ℝ × ℝ) (r : Fin (nu + nd) → X) :
    ((spinSquare wf r : ℝ) : ℂ) = SpinSquared.evaluate (fun x => (((wf x).1 : ℂ), (wf x).2)) r := by
  have hside : ∀ i, ((sidePermute wf r i : ℝ) : ℂ) = ratioSumOne (fun x => (((wf x).1 : ℂ), (wf x).2)) r i := by
    intro i
    rw [side_eq]
    unfold ratioSumOne
    dsimp only
    rw [logsumexp_eq, List.map_map]
    push_cast
    congr 1
    rw [show majority nu nd = idxMajor nu nd from rfl]
    induction idxMajor nu nd with
    | nil => simp
    | cons j l ih =>
      simp only [List.map_cons, List.sum_cons, Complex.ofReal_add, ih, Function.comp, swapOne_eq, Complex.conj_ofReal]
      push_cast
      rfl
  unfold spinSquare fullPermute SpinSquared.evaluate SpinSquared.sz
  rw [show minority nu nd = idxMinor nu nd from rfl]
  push_cast
  congr 1
  induction idxMinor nu nd with
  | nil => simp
  | cons j l ih => simp only [List.map_cons, List.sum_cons, Complex.ofReal_add, ih, hside]

/-- C104: `spin_square` is the local value of the total spin: times the wavefunction it is `S²` applied to the many-electron function. -/
theorem c104_spin_square (Φ : State X (nu + nd)) (hΦ : Antisymmetric Φ) (wf : (Fin (nu + nd) → X) → ℝ × ℝ)
    (hwf : ∀ r, ((value wf r : ℝ) : ℂ) = Φ r (upFirst nu nd)) (r : Fin (nu + nd) → X) (hsign : |(wf r).1| = 1) :
    (spinSquare wf r : ℂ) * Φ r (upFirst nu nd) = spinSquared Φ r (upFirst nu nd) := by
  rw [c104_same]
  refine c74_spin Φ hΦ _ (fun x => ?_) r ?_
  · rw [← hwf x]; unfold value; push_cast; rfl
  · simpa [Complex.norm_real] using hsign

/-- C104: for a spin eigenfunction every walker gives `S(S+1)`. -/
theorem c104_eigenfunction (Φ : State X (nu + nd)) (hΦ : Antisymmetric Φ) (wf : (Fin (nu + nd) → X) → ℝ × ℝ)
    (hwf : ∀ r, ((value wf r : ℝ) : ℂ) = Φ r (upFirst nu nd)) (S : ℝ)
    (hS : ∀ r s, spinSquared Φ r s = (S * (S + 1) : ℝ) * Φ r s) (r : Fin (nu + nd) → X) (hsign : |(wf r).1| = 1) :
    spinSquare wf r = S * (S + 1) := by
  have h : ((spinSquare wf r : ℝ) : ℂ) = ((S * (S + 1) : ℝ) : ℂ) := by
    rw [c104_same]
    refine c74_eigenfunction Φ hΦ _ (fun x => ?_) S hS r ?_
    · rw [← hwf x]; unfold value; push_cast; rfl
    · simpa [Complex.norm_real] using hsign
  exact_mod_cast h

/-- Real wavefunction, antisymmetric in the electrons of each spin. -/
def AntisymmetricPerSpin (ψ : (Fin (nu + nd) → X) → ℝ) : Prop :=
  ∀ (i j : Fin (nu + nd)), i ≠ j → ((i : ℕ) < nu ↔ (j : ℕ) < nu) → ∀ r, ψ (r ∘ Equiv.swap i j) = -ψ r

theorem major_spin {j : Fin (nu + nd)} (h : j ∈ idxMajor nu nd) : (j : ℕ) < nu ↔ nu > nd := by
  unfold idxMajor at h
  split at h <;> simp_all <;> omega

theorem minor_spin {i : Fin (nu + nd)} (h : i ∈ idxMinor nu nd) : (i : ℕ) < nu ↔ ¬ nu > nd := by
  unfold idxMinor at h
  split at h <;> simp_all

theorem minor_ne_major {i j : Fin (nu + nd)} (hi : i ∈ idxMinor nu nd) (hj : j ∈ idxMajor nu nd) : i ≠ j := by
  rintro rfl
  have := major_spin hj
  have := minor_spin hi
  tauto

/-- Relabelling the minority electrons turns the value for one of them into that for another. -/
theorem side_relabel (wf : (Fin (nu + nd) → X) → ℝ × ℝ) (hsign : ∀ r, |(wf r).1| = 1 ∨ (wf r).1 = 0) (hψ : AntisymmetricPerSpin (value wf))
    {i j : Fin (nu + nd)} (hi : i ∈ idxMinor nu nd) (hj : j ∈ idxMinor nu nd) (r : Fin (nu + nd) → X) :
    sidePermute wf (r ∘ Equiv.swap i j) i = sidePermute wf r j := by
  rcases eq_or_ne i j with rfl | hij
  · simp
  have hspin : (i : ℕ) < nu ↔ (j : ℕ) < nu := (minor_spin hi).trans (minor_spin hj).symm
  have hratio : ∀ a b, (wf a).1 * (wf b).1 * Real.exp ((wf a).2 - (wf b).2) = value wf a / value wf b := by
    intro a b
    rcases hsign b with this | hz
    swap
    · simp [value, hz]
    have h1 : (wf b).1 * (wf b).1 = 1 := by
      rw [← abs_mul_abs_self, this]; norm_num
    have h0 : (wf b).1 ≠ 0 := by intro h; rw [h] at h1; simp at h1
    have he := Real.exp_ne_zero (wf b).2
    unfold value
    rw [Real.exp_sub]
    field_simp
    linear_combination (wf a).1 * h1
  rw [side_eq, side_eq]
  congr 2
  refine List.map_congr_left fun m hm => ?_
  rw [hratio, hratio]
  have hmi := minor_ne_major hi hm
  have hmj := minor_ne_major hj hm
  have hperm : (r ∘ Equiv.swap i j) ∘ Equiv.swap i m = (r ∘ Equiv.swap j m) ∘ Equiv.swap i j := by
    funext k
    simp only [Function.comp]
    congr 1
    by_cases h1 : k = i
    · subst h1; simp [Equiv.swap_apply_of_ne_of_ne hmi.symm hmj.symm]
    · by_cases h2 : k = m
      · subst h2; simp [Equiv.swap_apply_of_ne_of_ne hmi.symm hmj.symm]
      · by_cases h3 : k = j
        · subst h3; simp [Equiv.swap_apply_of_ne_of_ne h1 h2, Equiv.swap_apply_of_ne_of_ne hij hmi]
        · simp [Equiv.swap_apply_of_ne_of_ne h1 h2, Equiv.swap_apply_of_ne_of_ne h1 h3, Equiv.swap_apply_of_ne_of_ne h3 h2]
  rw [hperm, hψ i j hij hspin, hψ i j hij hspin, neg_div_neg_eq]

section Expectation
variable [MeasurableSpace X] (μ : Measure X) [SigmaFinite μ]

/-- Relabelling does not change an integral over all configurations. -/
theorem integral_relabel {N : ℕ} (π : Equiv.Perm (Fin N)) (f : (Fin N → X) → ℝ) :
    ∫ r, f (r ∘ π) ∂Measure.pi (fun _ => μ) = ∫ r, f r ∂Measure.pi (fun _ => μ) := by
  have h := measurePreserving_arrowCongr' (fun _ : Fin N => μ) (fun _ => μ) (π.symm : Fin N ≃ Fin N) (MeasurableEquiv.refl X)
    fun _ => MeasurePreserving.id μ
  exact h.integral_comp' (g := f)

omit [MeasurableSpace X] in
theorem value_sq_relabel (wf : (Fin (nu + nd) → X) → ℝ × ℝ) (hψ : AntisymmetricPerSpin (value wf))
    {i j : Fin (nu + nd)} (hi : i ∈ idxMinor nu nd) (hj : j ∈ idxMinor nu nd) (r : Fin (nu + nd) → X) :
    value wf (r ∘ Equiv.swap i j) ^ 2 = value wf r ^ 2 := by
  rcases eq_or_ne i j with rfl | hij
  · simp
  · rw [hψ i j hij ((minor_spin hi).trans (minor_spin hj).symm)]; ring

theorem length_minor : (idxMinor nu nd).length = min nu nd := by
  have hu : ((List.finRange (nu + nd)).filter (fun i : Fin (nu + nd) => decide ((i : ℕ) < nu))).length = nu := by
    have h := sum_up (nu := nu) (nd := nd) (fun _ => (1 : ℂ))
    simp at h
    exact_mod_cast h
  have hd : ((List.finRange (nu + nd)).filter (fun i : Fin (nu + nd) => decide (nu ≤ (i : ℕ)))).length = nd := by
    have h := sum_down (nu := nu) (nd := nd) (fun _ => (1 : ℂ))
    simp at h
    exact_mod_cast h
  unfold idxMinor
  split
  · rw [hd, min_eq_right (by omega)]
  · rw [hu, min_eq_left (by omega)]

/-- C104: whichever minority electron is exchanged, the `plus` value has the same average over `ψ²` as the sum over all of them: for every
step, `plus`, `plus` with fixed index and `square` estimate the same quantity. -/
theorem c104_expectation (wf : (Fin (nu + nd) → X) → ℝ × ℝ) (hsign : ∀ r, |(wf r).1| = 1 ∨ (wf r).1 = 0) (hψ : AntisymmetricPerSpin (value wf))
    (hmin : 0 < min nu nd)
    (hint : ∃ i ∈ idxMinor nu nd, Integrable (fun r => sidePermute wf r i * value wf r ^ 2) (Measure.pi fun _ => μ)) (step : ℕ) (schema : Schema) :
    ∃ P : (Fin (nu + nd) → X) → ℝ, (∀ r, penaltyLocal schema step wf r = some (P r)) ∧
      ∫ r, P r * value wf r ^ 2 ∂Measure.pi (fun _ => μ) = ∫ r, fullPermute wf r * value wf r ^ 2 ∂Measure.pi (fun _ => μ) := by
  have hswap : ∀ i j, i ∈ idxMinor nu nd → j ∈ idxMinor nu nd → (fun r => sidePermute wf r j * value wf r ^ 2) =
      (fun r => sidePermute wf r i * value wf r ^ 2) ∘ fun r => r ∘ Equiv.swap i j := by
    intro i j hi hj
    funext r
    simp only [Function.comp_apply]
    rw [side_relabel wf hsign hψ hi hj, value_sq_relabel wf hψ hi hj]
  have heq : ∀ i j, i ∈ idxMinor nu nd → j ∈ idxMinor nu nd →
      ∫ r, sidePermute wf r j * value wf r ^ 2 ∂Measure.pi (fun _ => μ) = ∫ r, sidePermute wf r i * value wf r ^ 2 ∂Measure.pi (fun _ => μ) := by
    intro i j hi hj
    rw [hswap i j hi hj]
    exact integral_relabel μ (Equiv.swap i j) fun r => sidePermute wf r i * value wf r ^ 2
  obtain ⟨i0, hi0, hint0⟩ := hint
  have hint' : ∀ j ∈ idxMinor nu nd, Integrable (fun r => sidePermute wf r j * value wf r ^ 2) (Measure.pi fun _ => μ) := by
    intro j hj
    rw [hswap i0 j hi0 hj]
    have h := measurePreserving_arrowCongr' (fun _ : Fin (nu + nd) => μ) (fun _ => μ) (Equiv.swap i0 j) (MeasurableEquiv.refl X)
      fun _ => MeasurePreserving.id μ
    have h2 := h.integrable_comp_emb (MeasurableEquiv.measurableEmbedding _) (g := fun r => sidePermute wf r i0 * value wf r ^ 2)
    refine (h2.2 hint0).congr (Filter.Eventually.of_forall fun r => ?_)
    rfl
  have hfull : ∫ r, fullPermute wf r * value wf r ^ 2 ∂Measure.pi (fun _ => μ) =
      ((idxMinor nu nd).map fun j => ∫ r, sidePermute wf r j * value wf r ^ 2 ∂Measure.pi (fun _ => μ)).sum := by
    unfold fullPermute
    have : ∀ l : List (Fin (nu + nd)), (∀ j ∈ l, j ∈ idxMinor nu nd) →
        Integrable (fun r => (l.map (sidePermute wf r)).sum * value wf r ^ 2) (Measure.pi fun _ => μ) ∧
        ∫ r, (l.map (sidePermute wf r)).sum * value wf r ^ 2 ∂Measure.pi (fun _ => μ) =
          (l.map fun j => ∫ r, sidePermute wf r j * value wf r ^ 2 ∂Measure.pi (fun _ => μ)).sum := by
      intro l
      induction l with
      | nil => intro _; simp
      | cons a l ih =>
        intro h
        obtain ⟨h1, h2⟩ := ih fun j hj => h j (List.mem_cons_of_mem _ hj)
        have ha := hint' a (h a List.mem_cons_self)
        simp only [List.map_cons, List.sum_cons, add_mul]
        exact ⟨ha.add h1, by rw [integral_add ha h1, h2]⟩
    exact (this _ fun j hj => hj).2
  have hplus : ∀ i ∈ idxMinor nu nd, ∫ r, sidePermute wf r i * ((min nu nd : ℕ) : ℝ) * value wf r ^ 2 ∂Measure.pi (fun _ => μ) =
      ∫ r, fullPermute wf r * value wf r ^ 2 ∂Measure.pi (fun _ => μ) := by
    intro i hi
    rw [hfull]
    have h1 : ((idxMinor nu nd).map fun j => ∫ r, sidePermute wf r j * value wf r ^ 2 ∂Measure.pi (fun _ => μ)) =
        (idxMinor nu nd).map fun _ => ∫ r, sidePermute wf r i * value wf r ^ 2 ∂Measure.pi (fun _ => μ) :=
      List.map_congr_left fun j hj => heq i j hi hj
    rw [h1, List.map_const', List.sum_replicate, length_minor, nsmul_eq_mul, ← integral_const_mul]
    refine integral_congr_ae (Filter.Eventually.of_forall fun r => ?_)
    dsimp only
    ring
  have hlt : step % min nu nd < (idxMinor nu nd).length := by rw [length_minor]; exact Nat.mod_lt _ hmin
  have hidx : swapIndex nu nd step = some ((idxMinor nu nd)[step % min nu nd]) := by
    unfold swapIndex; exact List.getElem?_eq_getElem hlt
  unfold penaltyLocal
  rw [hidx]
  cases schema with
  | square => exact ⟨fullPermute wf, fun r => rfl, rfl⟩
  | plus => exact ⟨_, fun r => rfl, hplus _ (List.getElem_mem hlt)⟩
  | plusFix =>
    obtain ⟨a, ha⟩ : ∃ a, (idxMinor nu nd)[0]? = some a :=
      ⟨_, List.getElem?_eq_getElem (by rw [length_minor]; exact hmin)⟩
    have hmem : a ∈ idxMinor nu nd := List.mem_of_getElem? ha
    exact ⟨fun r => sidePermute wf r a * ((min nu nd : ℕ) : ℝ), fun r => by rw [Option.bind_some, ha]; rfl, hplus a hmem⟩

end Expectation

theorem minor_nodup : (idxMinor nu nd).Nodup := by
  unfold idxMinor
  split <;> exact (List.nodup_finRange _).filter _

/-- C104: along consecutive steps every minority electron is exchanged in turn: among any `min nu nd` consecutive steps, each exactly once. -/
theorem c104_cycle (hmin : 0 < min nu nd) (step : ℕ) (i : Fin (nu + nd)) (hi : i ∈ idxMinor nu nd) :
    ∃! k, k < min nu nd ∧ swapIndex nu nd (step + k) = some i := by
  set n := min nu nd with hn
  obtain ⟨p, hp, hpi⟩ := List.mem_iff_getElem.1 hi
  have hpn : p < n := by rw [length_minor] at hp; exact hp
  have hiff : ∀ k, swapIndex nu nd (step + k) = some i ↔ (step + k) % n = p := by
    intro k
    have hk : (step + k) % n < (idxMinor nu nd).length := by rw [length_minor]; exact Nat.mod_lt _ hmin
    unfold swapIndex
    rw [← hn, List.getElem?_eq_getElem hk, Option.some.injEq, ← hpi]
    exact minor_nodup.getElem_inj_iff
  have hs := Nat.mod_lt step hmin
  refine ⟨(p + (n - step % n)) % n, ⟨Nat.mod_lt _ hmin, ?_⟩, ?_⟩
  · rw [hiff, Nat.add_mod, Nat.mod_mod, ← Nat.add_mod]
    have : step + (p + (n - step % n)) = p + n * (step / n + 1) := by
      have := Nat.div_add_mod step n
      have h2 : n * (step / n + 1) = n * (step / n) + n := by ring
      omega
    rw [this, Nat.add_mul_mod_self_left, Nat.mod_eq_of_lt hpn]
  · rintro k ⟨hk, hsk⟩
    rw [hiff] at hsk
    have h1 : (p + (n - step % n)) % n = (step + k + (n - step % n)) % n := by
      rw [Nat.add_mod, ← hsk, Nat.mod_mod, ← Nat.add_mod]
    have h2 : step + k + (n - step % n) = k + n * (step / n + 1) := by
      have := Nat.div_add_mod step n
      have h2 : n * (step / n + 1) = n * (step / n) + n := by ring
      omega
    rw [h1, h2, Nat.add_mul_mod_self_left, Nat.mod_eq_of_lt hk]

/-- C104: without a minority electron there is nothing to exchange: no value is defined. -/
theorem c104_polarised (h : min nu nd = 0) (schema : Schema) (step : ℕ) (wf : (Fin (nu + nd) → X) → ℝ × ℝ) (r : Fin (nu + nd) → X) :
    penaltyLocal schema step wf r = none := by
  have h0 : idxMinor nu nd = [] := List.length_eq_zero_iff.1 (by rw [length_minor, h])
  simp [penaltyLocal, swapIndex, h0]

/-- C104: `spin_square_approx` is the constant plus the value of `plus` with fixed index, so its average is that of `spin_square`. -/
theorem c104_approx (hmin : 0 < min nu nd) (step : ℕ) (wf : (Fin (nu + nd) → X) → ℝ × ℝ) (r : Fin (nu + nd) → X) :
    spinSquareApprox wf r = (penaltyLocal .plusFix step wf r).map fun p => |(nu : ℝ) - nd| / 2 * (|(nu : ℝ) - nd| / 2 + 1) + p := by
  obtain ⟨a, ha⟩ : ∃ a, (idxMinor nu nd)[0]? = some a :=
    ⟨_, List.getElem?_eq_getElem (by rw [length_minor]; exact hmin)⟩
  obtain ⟨b, hb⟩ : ∃ b, swapIndex nu nd step = some b :=
    ⟨_, List.getElem?_eq_getElem (by rw [length_minor]; exact Nat.mod_lt _ hmin)⟩
  unfold penaltyLocal spinSquareApprox
  rw [hb, ha]
  simp only [Option.map_some, Option.bind_some, Option.some.injEq]
  have : (if nu > nd then nd else nu) = min nu nd := by split <;> omega
  rw [this]
  ring

/-- A concrete case of the hypotheses: one up and two down electrons on two sites, with values -1, 0 and 1. -/
noncomputable def sites (r : Fin (1 + 2) → Bool) : ℝ × ℝ := ((if r 1 then 1 else 0) - (if r 2 then 1 else 0), 0)

example (step : ℕ) (schema : Schema) : ∃ P : (Fin (1 + 2) → Bool) → ℝ, (∀ r, penaltyLocal schema step sites r = some (P r)) ∧
    ∫ r, P r * value sites r ^ 2 ∂Measure.pi (fun _ => Measure.count) = ∫ r, fullPermute sites r * value sites r ^ 2 ∂Measure.pi (fun _ => Measure.count) := by
  refine c104_expectation Measure.count sites ?_ ?_ (by decide) ?_ step schema
  · intro r
    unfold sites
    cases r 1 <;> cases r 2 <;> simp
  · intro i j hij hs r
    have : (i = 1 ∧ j = 2) ∨ (i = 2 ∧ j = 1) := by revert hij hs; revert i j; decide
    rcases this with ⟨rfl, rfl⟩ | ⟨rfl, rfl⟩ <;> simp [value, sites]
  · exact ⟨0, by decide, Integrable.of_finite⟩

/-- The exchanged electron for two up and three down electrons: 0, 1, 0, 1, … -/
example : swapIndex 2 3 7 = some 1 := by decide

end Jaqmc.LegacyLoss.Props
