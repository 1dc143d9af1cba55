import Verif.Lemmas.SampledGradient
import Verif.Lemmas.Mixing
import Mathlib.Probability.Kernel.MeasurableIntegral
/-!
Lemmas for C142: one step of a training run, given all that happened before.
-/
namespace Jaqmc.Average.Training
open MeasureTheory ProbabilityTheory Jaqmc.Average.Spec Jaqmc.LossGrad.Spec Jaqmc.Average.SampledGradient
open scoped ENNReal

set_option linter.unusedSectionVars false

variable {Ω : Type} [MeasurableSpace Ω] {P : Measure Ω} [IsProbabilityMeasure P]

/-- Something from the past, made of the starts and of the draws of the past, and new draws: the past is independent of the new draws. -/
theorem past_apart {κ M X H : Type} [Nonempty M] [MeasurableSpace M] [MeasurableSpace X] [MeasurableSpace H] {F : κ → Ω → M} (hF : ∀ q, Measurable (F q))
    (hI : iIndepFun F P) {x : Ω → X} (mx : Measurable x) (ix : IndepFun x (fun ω q => F q ω) P) {S S' : Finset κ} (hd : Disjoint S S') {f : X → (κ → M) → H}
    (hf : Measurable fun p : X × (κ → M) => f p.1 p.2) (dep : ∀ x d d', (∀ k ∈ S, d k = d' k) → f x d = f x d') :
    IndepFun (fun ω => f (x ω) fun k => F k ω) (fun ω (q : S') => F q ω) P := by
  have h := made_apart hF hI mx (measurable_const : Measurable fun _ : Ω => ()) (indepFun_const_right x ()) (by
      have hm : Measurable fun x : X => (x, ()) := measurable_id.prodMk measurable_const
      exact ix.comp hm measurable_id) hd (f := f) (f' := fun (_ : Unit) (d : κ → M) (q : S') => d q) hf
      (measurable_pi_iff.mpr fun q => (measurable_pi_apply q.1).comp measurable_snd) dep (fun _ d d' h => funext fun q => h q.1 q.2)
  exact h

/-- One step, given the past: if, whatever the past, each of finitely many walkers ends up near a law that depends on the past, and if they use different new draws, then the
past and the new batch together are near the past with an independent sample from its law. -/
theorem step_near {κ M X H ι B : Type} [Fintype ι] [Nonempty M] [MeasurableSpace M] [MeasurableSpace X] [MeasurableSpace H] [MeasurableSpace B] {F : κ → Ω → M}
    (hF : ∀ q, Measurable (F q)) (hI : iIndepFun F P) {x : Ω → X} (mx : Measurable x) (ix : IndepFun x (fun ω q => F q ω) P) {S : Finset κ} {S' : ι → Finset κ}
    (hd : ∀ i, Disjoint S (S' i)) (hd' : ∀ i j, i ≠ j → Disjoint (S' i) (S' j)) {f : X → (κ → M) → H}
    (hf : Measurable fun p : X × (κ → M) => f p.1 p.2) (dep : ∀ x d d', (∀ k ∈ S, d k = d' k) → f x d = f x d') {e : ι → H → (κ → M) → B}
    (he : ∀ i, Measurable fun p : H × (κ → M) => e i p.1 p.2) (dep' : ∀ i h d d', (∀ k ∈ S' i, d k = d' k) → e i h d = e i h d')
    {Q : H → Measure B} (hQ : ∀ h, IsProbabilityMeasure (Q h)) (mQ : ∀ s, MeasurableSet s → Measurable fun h => Q h s) {δ : ℝ} (hδ : 0 ≤ δ)
    (near : ∀ ω i, ∀ φ : B → ℝ, Measurable φ → (∀ y, |φ y| ≤ 1) →
      |∫ ω', φ (e i (f (x ω) fun k => F k ω) fun k => F k ω') ∂P - ∫ y, φ y ∂Q (f (x ω) fun k => F k ω)| ≤ δ)
    {φ : H × (ι → B) → ℝ} (hφ : Measurable φ) (h0 : ∀ p, 0 ≤ φ p) (h1 : ∀ p, φ p ≤ 1) :
    |∫ ω, φ (f (x ω) (fun k => F k ω), fun i => e i (f (x ω) fun k => F k ω) fun k => F k ω) ∂P -
      ∫ ω, ∫ y, φ (f (x ω) (fun k => F k ω), y) ∂(Measure.pi fun _ : ι => Q (f (x ω) fun k => F k ω)) ∂P| ≤ Fintype.card ι * δ := by
  classical
  obtain ⟨m⟩ : Nonempty M := inferInstance
  set hist : Ω → H := fun ω => f (x ω) fun k => F k ω with hhist
  set R : Finset κ := Finset.univ.biUnion S' with hR
  set new : Ω → (R → M) := fun ω q => F q ω with hnew
  have mD : Measurable fun ω => fun q : κ => F q ω := measurable_pi_iff.mpr hF
  have mhist : Measurable hist := hf.comp (mx.prodMk mD)
  have mnew : Measurable new := measurable_pi_iff.mpr fun q => hF q.1
  have hind : IndepFun hist new P := past_apart hF hI mx ix (by rw [hR, Finset.disjoint_biUnion_right]; intro i _; exact hd i) hf dep
  -- the new batch, from the past and the new draws alone
  set E : H → (R → M) → (ι → B) := fun h v i => e i h (fillIn m R v) with hE
  have mE : Measurable fun p : H × (R → M) => E p.1 p.2 := by
    refine measurable_pi_iff.mpr fun i => ?_
    exact (he i).comp (measurable_fst.prodMk ((fillIn_measurable m R).comp measurable_snd))
  have eE : ∀ h ω, (fun i => e i h fun k => F k ω) = E h (new ω) := by
    intro h ω
    funext i
    refine dep' i h _ _ fun k hk => ?_
    have hkR : k ∈ R := Finset.mem_biUnion.mpr ⟨i, Finset.mem_univ _, hk⟩
    simp only [fillIn, dif_pos hkR, hnew]
  have hbd : ∀ p, 0 ≤ φ p ∧ φ p ≤ 1 := fun p => ⟨h0 p, h1 p⟩
  have ph := Measure.isProbabilityMeasure_map (μ := P) mhist.aemeasurable
  have pn := Measure.isProbabilityMeasure_map (μ := P) mnew.aemeasurable
  have mφ : Measurable fun p : H × (R → M) => φ (p.1, E p.1 p.2) := hφ.comp (measurable_fst.prodMk mE)
  have e1 : ∫ ω, φ (hist ω, fun i => e i (hist ω) fun k => F k ω) ∂P = ∫ h, ∫ ω, φ (h, fun i => e i h fun k => F k ω) ∂P ∂(P.map hist) := by
    have hmap := (indepFun_iff_map_prod_eq_prod_map_map mhist.aemeasurable mnew.aemeasurable).mp hind
    have a1 : ∫ ω, φ (hist ω, fun i => e i (hist ω) fun k => F k ω) ∂P = ∫ p, φ (p.1, E p.1 p.2) ∂(P.map fun ω => (hist ω, new ω)) := by
      rw [integral_map (mhist.prodMk mnew).aemeasurable mφ.aestronglyMeasurable]
      exact integral_congr_ae (Filter.Eventually.of_forall fun ω => by simp only [eE])
    rw [a1, hmap, integral_prod _ (bounded_integrable _ mφ fun p => hbd _)]
    refine integral_congr_ae (Filter.Eventually.of_forall fun h => ?_)
    have a2 := integral_map (μ := P) mnew.aemeasurable (f := fun v => φ (h, E h v)) (mφ.comp measurable_prodMk_left).aestronglyMeasurable
    simp only
    rw [a2]
    exact integral_congr_ae (Filter.Eventually.of_forall fun ω => by simp only [eE])
  -- the law of the past is measurable
  have mpi : Measurable fun h => Measure.pi fun _ : ι => Q h := by
    refine Measurable.measure_of_isPiSystem_of_isProbabilityMeasure (S := Set.pi Set.univ '' Set.pi Set.univ fun _ : ι => {s : Set B | MeasurableSet s}) generateFrom_pi.symm isPiSystem_pi ?_
    rintro _ ⟨s, hs, rfl⟩
    simp only [Measure.pi_pi]
    exact Finset.measurable_prod _ fun i _ => mQ (s i) (hs i (Set.mem_univ i))
  set K : Kernel H (ι → B) := ⟨fun h => Measure.pi fun _ : ι => Q h, mpi⟩ with hK
  have hKp : IsMarkovKernel K := ⟨fun h => by show IsProbabilityMeasure (Measure.pi fun _ : ι => Q h); infer_instance⟩
  have mI : Measurable fun h => ∫ y, φ (h, y) ∂(Measure.pi fun _ : ι => Q h) := by
    have h2 : StronglyMeasurable φ := hφ.stronglyMeasurable
    have := h2.integral_kernel_prod_right' (κ := K)
    exact this.measurable
  have mJ : Measurable fun h => ∫ ω, φ (h, fun i => e i h fun k => F k ω) ∂P := by
    have h2 : Measurable fun p : H × Ω => φ (p.1, fun i => e i p.1 fun k => F k p.2) := by
      refine hφ.comp (measurable_fst.prodMk (measurable_pi_iff.mpr fun i => ?_))
      exact (he i).comp (measurable_fst.prodMk (mD.comp measurable_snd))
    exact h2.stronglyMeasurable.integral_prod_right'.measurable
  have e2 : ∫ ω, ∫ y, φ (hist ω, y) ∂(Measure.pi fun _ : ι => Q (hist ω)) ∂P = ∫ h, ∫ y, φ (h, y) ∂(Measure.pi fun _ : ι => Q h) ∂(P.map hist) :=
    (integral_map mhist.aemeasurable mI.aestronglyMeasurable).symm
  have bI : ∀ h, 0 ≤ ∫ y, φ (h, y) ∂(Measure.pi fun _ : ι => Q h) ∧ ∫ y, φ (h, y) ∂(Measure.pi fun _ : ι => Q h) ≤ 1 := fun h =>
    average_between _ (hφ.comp measurable_prodMk_left) fun y => hbd _
  have bJ : ∀ h, 0 ≤ ∫ ω, φ (h, fun i => e i h fun k => F k ω) ∂P ∧ ∫ ω, φ (h, fun i => e i h fun k => F k ω) ∂P ≤ 1 := fun h =>
    average_between _ (hφ.comp (measurable_const.prodMk (measurable_pi_iff.mpr fun i => (he i).comp (measurable_const.prodMk mD)))) fun ω => hbd _
  -- for each past
  have point : ∀ ω, |∫ ω', φ (hist ω, fun i => e i (hist ω) fun k => F k ω') ∂P - ∫ y, φ (hist ω, y) ∂(Measure.pi fun _ : ι => Q (hist ω))| ≤ Fintype.card ι * δ := by
    intro ω
    have hm : ∀ i, Measurable fun ω' => e i (hist ω) fun k => F k ω' := fun i => (he i).comp (measurable_const.prodMk mD)
    have hi : iIndepFun (fun i ω' => e i (hist ω) fun k => F k ω') P := by
      have := all_apart (W := ι) (V := Unit) hF hI (X := fun _ _ => ()) (fun _ => measurable_const) (by
          refine one_by_one fun s w _ => ?_
          exact indepFun_const_left _ _) (by exact indepFun_const_left _ _) (S := S') hd' (f := fun i _ d => e i (hist ω) d)
          (fun i => (he i).comp (measurable_const.prodMk measurable_snd)) (fun i _ d d' h => dep' i _ d d' h)
      exact this
    rw [iIndepFun_iff_map_fun_eq_pi_map fun i => (hm i).aemeasurable] at hi
    have hp : ∀ i, IsProbabilityMeasure (P.map fun ω' => e i (hist ω) fun k => F k ω') := fun i => Measure.isProbabilityMeasure_map (hm i).aemeasurable
    have hg : Measurable fun y : ι → B => φ (hist ω, y) := hφ.comp measurable_prodMk_left
    have hpn := products_near (π := fun _ : ι => Q (hist ω)) (ρ := fun i => P.map fun ω' => e i (hist ω) fun k => F k ω') hδ (fun i ψ hψ hb => by
      rw [integral_map (hm i).aemeasurable hψ.aestronglyMeasurable]
      exact near ω i ψ hψ hb) hg (fun y => h0 _) (fun y => h1 _)
    rw [← hi, integral_map (measurable_pi_iff.mpr hm).aemeasurable hg.aestronglyMeasurable] at hpn
    exact hpn
  have e3 : ∫ ω, φ (hist ω, fun i => e i (hist ω) fun k => F k ω) ∂P = ∫ ω, ∫ ω', φ (hist ω, fun i => e i (hist ω) fun k => F k ω') ∂P ∂P := by
    rw [e1]
    exact integral_map mhist.aemeasurable mJ.aestronglyMeasurable
  show |∫ ω, φ (hist ω, fun i => e i (hist ω) fun k => F k ω) ∂P - ∫ ω, ∫ y, φ (hist ω, y) ∂(Measure.pi fun _ : ι => Q (hist ω)) ∂P| ≤ _
  have i1 : Integrable (fun ω => ∫ ω', φ (hist ω, fun i => e i (hist ω) fun k => F k ω') ∂P) P := bounded_integrable P (mJ.comp mhist) fun ω => bJ _
  have i2 : Integrable (fun ω => ∫ y, φ (hist ω, y) ∂(Measure.pi fun _ : ι => Q (hist ω))) P := bounded_integrable P (mI.comp mhist) fun ω => bI _
  rw [e3, ← integral_sub i1 i2]
  have m3 : Measurable fun ω => ∫ ω', φ (hist ω, fun i => e i (hist ω) fun k => F k ω') ∂P - ∫ y, φ (hist ω, y) ∂(Measure.pi fun _ : ι => Q (hist ω)) :=
    (mJ.comp mhist).sub (mI.comp mhist)
  have := average_between P m3 (m := -(Fintype.card ι * δ)) (M := Fintype.card ι * δ) fun ω => abs_le.mp (point ω)
  exact abs_le.mpr this

/-! ### Chains for a wavefunction that depends on the past -/

variable {V N Key Θ : Type} [MeasurableSpace V] [MeasurableSpace N] [MeasurableSpace Θ]

theorem wstep_joint {a : Θ → V → ℝ} (ha : Measurable fun p : Θ × V => a p.1 p.2) {move : N → V → V} (hmv : Measurable fun p : V × N => move p.2 p.1) :
    Measurable fun p : Θ × V × N × ℝ => wstep (a p.1) move p.2.1 p.2.2.1 p.2.2.2 := by
  unfold wstep
  have hy : Measurable fun p : Θ × V × N × ℝ => move p.2.2.1 p.2.1 := hmv.comp ((measurable_fst.comp measurable_snd).prodMk (by fun_prop))
  have h1 : Measurable fun p : Θ × V × N × ℝ => a p.1 p.2.1 := ha.comp (measurable_fst.prodMk (by fun_prop))
  have h2 : Measurable fun p : Θ × V × N × ℝ => a p.1 (move p.2.2.1 p.2.1) := ha.comp (measurable_fst.prodMk hy)
  have h3 : Measurable fun p : Θ × V × N × ℝ => p.2.2.2 * a p.1 p.2.1 := by fun_prop
  exact Measurable.ite (measurableSet_lt h3 h2) hy (by fun_prop)

theorem chain_joint {a : Θ → V → ℝ} (ha : Measurable fun p : Θ × V => a p.1 p.2) {move : N → V → V} (hmv : Measurable fun p : V × N => move p.2 p.1) (ks : List (Key × Key)) :
    Measurable fun p : Θ × V × (Key → N × ℝ) => chain (a p.1) move p.2.2 p.2.1 ks := by
  induction ks using List.reverseRecOn with
  | nil => exact measurable_fst.comp measurable_snd
  | append_singleton ks k ih =>
    simp only [chain_append]
    have h1 : Measurable fun p : Θ × V × (Key → N × ℝ) => (p.2.2 k.1).1 := by fun_prop
    have h2 : Measurable fun p : Θ × V × (Key → N × ℝ) => (p.2.2 k.2).2 := by fun_prop
    exact (wstep_joint ha hmv).comp (measurable_fst.prodMk (ih.prodMk (h1.prodMk h2)))

/-- Whether an update would be accepted. -/
theorem accept_measurable {a : Θ → V → ℝ} (ha : Measurable fun p : Θ × V => a p.1 p.2) {move : N → V → V} (hmv : Measurable fun p : V × N => move p.2 p.1) (ks : List (Key × Key)) (k : Key × Key) :
    MeasurableSet {p : Θ × V × (Key → N × ℝ) | (p.2.2 k.2).2 * a p.1 (chain (a p.1) move p.2.2 p.2.1 ks) < a p.1 (move (p.2.2 k.1).1 (chain (a p.1) move p.2.2 p.2.1 ks))} := by
  have hc := chain_joint ha hmv ks
  have h1 : Measurable fun p : Θ × V × (Key → N × ℝ) => (p.2.2 k.1).1 := by fun_prop
  have h2 : Measurable fun p : Θ × V × (Key → N × ℝ) => (p.2.2 k.2).2 := by fun_prop
  have h3 : Measurable fun p : Θ × V × (Key → N × ℝ) => a p.1 (chain (a p.1) move p.2.2 p.2.1 ks) := ha.comp (measurable_fst.prodMk hc)
  have h4 : Measurable fun p : Θ × V × (Key → N × ℝ) => a p.1 (move (p.2.2 k.1).1 (chain (a p.1) move p.2.2 p.2.1 ks)) :=
    ha.comp (measurable_fst.prodMk (hmv.comp (hc.prodMk h1)))
  exact measurableSet_lt (h2.mul h3) h4

/-! ### The numbers of accepted moves -/

/-- The numbers of accepted moves of each device in all steps so far. -/
def Code (d : ℕ) : Type := List (Fin d → ℕ)

instance (d : ℕ) : MeasurableSpace (Code d) := ⊤
instance (d : ℕ) : DiscreteMeasurableSpace (Code d) := ⟨fun _ => trivial⟩
instance (d : ℕ) : Countable (Code d) := inferInstanceAs (Countable (List (Fin d → ℕ)))

end Jaqmc.Average.Training
