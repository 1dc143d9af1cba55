import Verif.Spec.Average
import Mathlib.MeasureTheory.Measure.Prod
import Mathlib.MeasureTheory.Measure.Lebesgue.Basic
/-!
One Metropolis update keeps the distribution of the wavefunction (C135).
-/
namespace Jaqmc.Average
open MeasureTheory ProbabilityTheory Jaqmc.Average.Spec Jaqmc.LossGrad.Spec
open scoped ENNReal

variable {V N Ω Key : Type} [MeasurableSpace V] [MeasurableSpace N] [MeasurableSpace Ω]

/-- One update of one walker with amplitudes `a`. -/
noncomputable def wstep (a : V → ℝ) (move : N → V → V) (x : V) (z : N) (u : ℝ) : V := by
  classical exact if u * a x < a (move z x) then move z x else x

noncomputable abbrev unif : Measure ℝ := volume.restrict (Set.Ico (0 : ℝ) 1)

instance unif_prob : IsProbabilityMeasure unif := ⟨by simp [unif]⟩

theorem accept_mass (A B : ℝ) (hA : 0 ≤ A) (hB : 0 ≤ B) :
    ENNReal.ofReal A * unif {u | u * A < B} = ENNReal.ofReal (min A B) := by
  rcases hA.eq_or_lt with h | h
  · rw [← h, min_eq_left hB]; simp
  · have e : {u | u * A < B} = Set.Iio (B / A) := by
      ext u; simp only [Set.mem_setOf_eq, Set.mem_Iio]; rw [lt_div_iff₀ h]
    rw [e, unif, Measure.restrict_apply measurableSet_Iio]
    have e2 : Set.Iio (B / A) ∩ Set.Ico 0 1 = Set.Ico 0 (min 1 (B / A)) := by
      ext u; simp only [Set.mem_inter_iff, Set.mem_Iio, Set.mem_Ico, lt_min_iff]; tauto
    rw [e2, Real.volume_Ico, sub_zero, ← ENNReal.ofReal_mul hA, mul_min_of_nonneg _ _ hA, mul_one, mul_div_cancel₀ _ h.ne']

theorem reject_mass (A B : ℝ) (hA : 0 ≤ A) (hB : 0 ≤ B) :
    ENNReal.ofReal (min A B) + ENNReal.ofReal A * unif {u | ¬ u * A < B} = ENNReal.ofReal A := by
  rw [← accept_mass A B hA hB, ← mul_add]
  have hm : MeasurableSet {u : ℝ | u * A < B} := measurableSet_lt (by fun_prop) (by fun_prop)
  have : unif {u | u * A < B} + unif {u | ¬ u * A < B} = 1 := by
    rw [← measure_univ (μ := unif), ← measure_add_measure_compl hm]
    rfl
  rw [this, mul_one]

theorem u_integral (A B : ℝ) (p q : ℝ≥0∞) :
    ∫⁻ u, (if u * A < B then p else q) ∂unif = unif {u | u * A < B} * p + unif {u | ¬ u * A < B} * q := by
  have hm : MeasurableSet {u : ℝ | u * A < B} := measurableSet_lt (by fun_prop) (by fun_prop)
  have : (fun u : ℝ => if u * A < B then p else q) =
      fun u => {u : ℝ | u * A < B}.indicator (fun _ => p) u + {u : ℝ | ¬ u * A < B}.indicator (fun _ => q) u := by
    funext u
    by_cases h : u * A < B
    · simp [Set.indicator, h, not_le.mpr h]
    · simp [Set.indicator, h, not_lt.mp h]
  rw [this, lintegral_add_left (measurable_const.indicator hm), lintegral_indicator hm, lintegral_indicator (by exact hm.compl)]
  simp [mul_comm]

theorem wstep_measurable {a : V → ℝ} (ha : Measurable a) {move : N → V → V} (hmv : Measurable fun p : V × N => move p.2 p.1) :
    Measurable fun p : V × N × ℝ => wstep a move p.1 p.2.1 p.2.2 := by
  unfold wstep
  have hy : Measurable fun p : V × N × ℝ => move p.2.1 p.1 := hmv.comp (measurable_fst.prodMk (measurable_fst.comp measurable_snd))
  refine Measurable.ite ?_ hy measurable_fst
  exact measurableSet_lt (by fun_prop) (ha.comp hy)

/-- One update leaves the density `a` alone. -/
theorem invariant {μ : Measure V} {ν : Measure N} [IsProbabilityMeasure ν] {a : V → ℝ} (ha : Measurable a) (h0 : ∀ x, 0 ≤ a x)
    {move : N → V → V} (hmv : Measurable fun p : V × N => move p.2 p.1) (hr : Reversible μ ν move)
    {g : V → ℝ≥0∞} (hg : Measurable g) :
    ∫⁻ x, ENNReal.ofReal (a x) * ∫⁻ z, ∫⁻ u, g (wstep a move x z u) ∂unif ∂ν ∂μ = ∫⁻ x, ENNReal.ofReal (a x) * g x ∂μ := by
  have hmz : ∀ x, Measurable fun z => move z x := fun x => hmv.comp (measurable_const.prodMk measurable_id)
  have e1 : ∀ x z, ENNReal.ofReal (a x) * ∫⁻ u, g (wstep a move x z u) ∂unif =
      ENNReal.ofReal (min (a x) (a (move z x))) * g (move z x) + ENNReal.ofReal (a x) * unif {u | ¬ u * a x < a (move z x)} * g x := by
    intro x z
    have : ∀ u, g (wstep a move x z u) = if u * a x < a (move z x) then g (move z x) else g x := by
      intro u; unfold wstep; split <;> rfl
    simp_rw [this]
    rw [u_integral, mul_add, ← mul_assoc, ← mul_assoc, accept_mass _ _ (h0 x) (h0 _)]
  have e2 : ∀ x, ENNReal.ofReal (a x) * ∫⁻ z, ∫⁻ u, g (wstep a move x z u) ∂unif ∂ν =
      ∫⁻ z, ENNReal.ofReal (min (a x) (a (move z x))) * g (move z x) ∂ν +
      ∫⁻ z, ENNReal.ofReal (a x) * unif {u | ¬ u * a x < a (move z x)} * g x ∂ν := by
    intro x
    rw [← lintegral_const_mul' _ _ ENNReal.ofReal_ne_top, ← lintegral_add_left]
    · exact lintegral_congr fun z => e1 x z
    · exact ((measurable_const.min (ha.comp (hmz x))).ennreal_ofReal).mul (hg.comp (hmz x))
  simp_rw [e2]
  have hS : Measurable fun p : V × V => ENNReal.ofReal (min (a p.1) (a p.2)) * g p.2 := by fun_prop
  have hm1 : Measurable fun p : V × N => ENNReal.ofReal (min (a p.1) (a (move p.2 p.1))) * g (move p.2 p.1) :=
    hS.comp (measurable_fst.prodMk hmv)
  have hm2 : Measurable fun p : V × N => ENNReal.ofReal (min (a (move p.2 p.1)) (a p.1)) * g p.1 :=
    hS.comp (hmv.prodMk measurable_fst)
  rw [lintegral_add_left hm1.lintegral_prod_right']
  rw [hr (fun p => ENNReal.ofReal (min (a p.1) (a p.2)) * g p.2) hS, ← lintegral_add_left hm2.lintegral_prod_right']
  refine lintegral_congr fun x => ?_
  have hm3 : Measurable fun z => ENNReal.ofReal (min (a (move z x)) (a x)) * g x := hm2.comp (measurable_const.prodMk measurable_id)
  simp only
  rw [← lintegral_add_left hm3]
  have : ∀ z, ENNReal.ofReal (min (a (move z x)) (a x)) * g x + ENNReal.ofReal (a x) * unif {u | ¬ u * a x < a (move z x)} * g x =
      ENNReal.ofReal (a x) * g x := by
    intro z
    rw [← add_mul, min_comm, reject_mass _ _ (h0 x) (h0 _)]
  simp_rw [this]
  simp

/-! ### A chain of updates -/

/-- The place of one walker after updates with the draws at the given keys (noise key, test key). -/
noncomputable def chain (a : V → ℝ) (move : N → V → V) (dr : Key → N × ℝ) (x : V) (ks : List (Key × Key)) : V :=
  ks.foldl (fun x k => wstep a move x (dr k.1).1 (dr k.2).2) x

theorem chain_append (a : V → ℝ) (move : N → V → V) (dr : Key → N × ℝ) (x : V) (ks : List (Key × Key)) (k : Key × Key) :
    chain a move dr x (ks ++ [k]) = wstep a move (chain a move dr x ks) (dr k.1).1 (dr k.2).2 := by
  simp [chain]

theorem chain_measurable {a : V → ℝ} (ha : Measurable a) {move : N → V → V} (hmv : Measurable fun p : V × N => move p.2 p.1) (ks : List (Key × Key)) :
    Measurable fun p : V × (Key → N × ℝ) => chain a move p.2 p.1 ks := by
  induction ks using List.reverseRecOn with
  | nil => exact measurable_fst
  | append_singleton ks k ih =>
    simp only [chain_append]
    have h1 : Measurable fun p : V × (Key → N × ℝ) => (p.2 k.1).1 := by fun_prop
    have h2 : Measurable fun p : V × (Key → N × ℝ) => (p.2 k.2).2 := by fun_prop
    exact (wstep_measurable ha hmv).comp (ih.prodMk (h1.prodMk h2))

/-- Only the draws at the keys in the list matter. -/
theorem chain_congr (a : V → ℝ) (move : N → V → V) (d d' : Key → N × ℝ) (x : V) (ks : List (Key × Key))
    (h : ∀ k ∈ ks, d k.1 = d' k.1 ∧ d k.2 = d' k.2) : chain a move d x ks = chain a move d' x ks := by
  induction ks using List.reverseRecOn with
  | nil => rfl
  | append_singleton ks k ih =>
    rw [chain_append, chain_append, ih fun k' hk' => h k' (by simp [hk']), (h k (by simp)).1, (h k (by simp)).2]

/-- All keys of a list of pairs. -/
def allKeys (ks : List (Key × Key)) : List Key := ks.flatMap fun k => [k.1, k.2]

variable {P : Measure Ω} [IsProbabilityMeasure P] {ν : Measure N} {noise : Key → Ω → N} {uniform : Key → Ω → ℝ}

theorem noise_prob (h : Independent P ν noise uniform) (k : Key) : IsProbabilityMeasure ν := by
  rw [← h.noise_law k]
  exact Measure.isProbabilityMeasure_map (measurable_fst.comp (h.measurable k)).aemeasurable

/-- The draws of the next update are independent of the walker's place. -/
theorem chain_next [Nonempty N] (h : Independent P ν noise uniform) {a : V → ℝ} (ha : Measurable a) {move : N → V → V}
    (hmv : Measurable fun p : V × N => move p.2 p.1) (x : V) (ks : List (Key × Key)) (k : Key × Key) (hd : (allKeys (ks ++ [k])).Nodup) :
    P.map (fun ω => (chain a move (fun k => (noise k ω, uniform k ω)) x ks, noise k.1 ω, uniform k.2 ω)) =
      (P.map fun ω => chain a move (fun k => (noise k ω, uniform k ω)) x ks).prod (ν.prod unif) := by
  classical
  have hdr : Measurable fun ω => fun k => (noise k ω, uniform k ω) := measurable_pi_iff.mpr h.measurable
  have hc : Measurable fun ω => chain a move (fun k => (noise k ω, uniform k ω)) x ks :=
    (chain_measurable ha hmv ks).comp (measurable_const.prodMk hdr)
  have hn : Measurable (noise k.1) := measurable_fst.comp (h.measurable k.1)
  have hu : Measurable (uniform k.2) := measurable_snd.comp (h.measurable k.2)
  have hne : k.1 ≠ k.2 ∧ (∀ q ∈ allKeys ks, q ≠ k.1) ∧ ∀ q ∈ allKeys ks, q ≠ k.2 := by
    unfold allKeys at hd ⊢
    rw [List.flatMap_append, List.nodup_append] at hd
    obtain ⟨_, h2, h3⟩ := hd
    simp only [List.flatMap_cons, List.flatMap_nil, List.append_nil, List.nodup_cons, List.mem_singleton] at h2
    exact ⟨h2.1, fun q hq => h3 q hq k.1 (by simp), fun q hq => h3 q hq k.2 (by simp)⟩
  have i2 : P.map (fun ω => (noise k.1 ω, uniform k.2 ω)) = ν.prod unif := by
    have hi : IndepFun (noise k.1) (uniform k.2) P := (h.indep.indepFun hne.1).comp measurable_fst measurable_snd
    rw [(indepFun_iff_map_prod_eq_prod_map_map hn.aemeasurable hu.aemeasurable).mp hi, h.noise_law, h.uniform_law]
  have i1 : IndepFun (fun ω => chain a move (fun k => (noise k ω, uniform k ω)) x ks) (fun ω => (noise k.1 ω, uniform k.2 ω)) P := by
    have hf := h.indep.indepFun_finset (allKeys ks).toFinset {k.1, k.2} (by
      rw [Finset.disjoint_left]
      intro q hq hq'
      rw [List.mem_toFinset] at hq
      rw [Finset.mem_insert, Finset.mem_singleton] at hq'
      exact hq'.elim (hne.2.1 q hq) (hne.2.2 q hq)) h.measurable
    let d0 : N × ℝ := (Classical.arbitrary N, 0)
    let ext : ((allKeys ks).toFinset → N × ℝ) → Key → N × ℝ := fun v q => if hq : q ∈ (allKeys ks).toFinset then v ⟨q, hq⟩ else d0
    have hext : Measurable ext := by
      refine measurable_pi_iff.mpr fun q => ?_
      by_cases hq : q ∈ (allKeys ks).toFinset
      · simp only [ext, dif_pos hq]; exact measurable_pi_apply _
      · simp only [ext, dif_neg hq]; exact measurable_const
    have hφ : Measurable fun v => chain a move (ext v) x ks := (chain_measurable ha hmv ks).comp (measurable_const.prodMk hext)
    have hψ : Measurable fun v : (({k.1, k.2} : Finset Key) → N × ℝ) =>
        ((v ⟨k.1, by simp⟩).1, (v ⟨k.2, by simp⟩).2) := by fun_prop
    have hcomp := hf.comp hφ hψ
    refine hcomp.congr (Filter.Eventually.of_forall fun ω => ?_) (Filter.Eventually.of_forall fun ω => rfl)
    simp only [Function.comp_apply]
    refine chain_congr _ _ _ _ _ _ fun q hq => ?_
    have m1 : q.1 ∈ (allKeys ks).toFinset := by
      rw [List.mem_toFinset]; exact List.mem_flatMap.mpr ⟨q, hq, by simp⟩
    have m2 : q.2 ∈ (allKeys ks).toFinset := by
      rw [List.mem_toFinset]; exact List.mem_flatMap.mpr ⟨q, hq, by simp⟩
    simp only [ext, dif_pos m1, dif_pos m2, and_self]
  rw [← i2]
  exact (indepFun_iff_map_prod_eq_prod_map_map hc.aemeasurable (hn.prodMk hu).aemeasurable).mp i1

/-- A chain that starts in the distribution stays in it. -/
theorem chain_invariant [Nonempty N] (h : Independent P ν noise uniform) {μ : Measure V} {a : V → ℝ} (ha : Measurable a) (h0 : ∀ x, 0 ≤ a x)
    {move : N → V → V} (hmv : Measurable fun p : V × N => move p.2 p.1) (hr : Reversible μ ν move)
    (ks : List (Key × Key)) (hd : (allKeys ks).Nodup) {g : V → ℝ≥0∞} (hg : Measurable g) :
    ∫⁻ x, ENNReal.ofReal (a x) * ∫⁻ ω, g (chain a move (fun k => (noise k ω, uniform k ω)) x ks) ∂P ∂μ = ∫⁻ x, ENNReal.ofReal (a x) * g x ∂μ := by
  induction ks using List.reverseRecOn generalizing g with
  | nil => simp [chain]
  | append_singleton ks k ih =>
    have := noise_prob h k.1
    have hdr : Measurable fun ω => fun k => (noise k ω, uniform k ω) := measurable_pi_iff.mpr h.measurable
    have hw := wstep_measurable ha hmv
    have hgw : Measurable fun p : V × N × ℝ => g (wstep a move p.1 p.2.1 p.2.2) := hg.comp hw
    have hG : Measurable fun y : V => ∫⁻ q, g (wstep a move y q.1 q.2) ∂(ν.prod unif) :=
      (hg.comp hw).lintegral_prod_right'
    have hd' : (allKeys ks).Nodup := by
      unfold allKeys at hd ⊢
      rw [List.flatMap_append, List.nodup_append] at hd
      exact hd.1
    have e : ∀ x, ∫⁻ ω, g (chain a move (fun k => (noise k ω, uniform k ω)) x (ks ++ [k])) ∂P =
        ∫⁻ ω, (fun y => ∫⁻ q, g (wstep a move y q.1 q.2) ∂(ν.prod unif)) (chain a move (fun k => (noise k ω, uniform k ω)) x ks) ∂P := by
      intro x
      have hc : Measurable fun ω => chain a move (fun k => (noise k ω, uniform k ω)) x ks :=
        (chain_measurable ha hmv ks).comp (measurable_const.prodMk hdr)
      have hn : Measurable (noise k.1) := measurable_fst.comp (h.measurable k.1)
      have hu : Measurable (uniform k.2) := measurable_snd.comp (h.measurable k.2)
      have hmap := chain_next h ha hmv x ks k hd
      have : ∫⁻ ω, g (chain a move (fun k => (noise k ω, uniform k ω)) x (ks ++ [k])) ∂P =
          ∫⁻ p, g (wstep a move p.1 p.2.1 p.2.2) ∂(P.map fun ω => (chain a move (fun k => (noise k ω, uniform k ω)) x ks, noise k.1 ω, uniform k.2 ω)) := by
        rw [lintegral_map hgw (hc.prodMk (hn.prodMk hu))]
        exact lintegral_congr fun ω => by rw [chain_append]
      have hp := Measure.isProbabilityMeasure_map (μ := P) hc.aemeasurable
      rw [this, hmap, lintegral_prod _ hgw.aemeasurable, lintegral_map hG hc]
    simp_rw [e]
    rw [ih hd' hG, ← invariant ha h0 hmv hr hg]
    refine lintegral_congr fun x => ?_
    rw [lintegral_prod (fun q : N × ℝ => g (wstep a move x q.1 q.2)) (hgw.comp (measurable_const.prodMk measurable_id)).aemeasurable]

end Jaqmc.Average
