import Verif.Lemmas.LongRun
/-!
Sums of readings along the walkers' updates (C139), and how rarely their averages are off.
-/
namespace Jaqmc.Average
open MeasureTheory ProbabilityTheory Jaqmc.Average Jaqmc.Average.Spec Jaqmc.Average.Ergodic Jaqmc.LossGrad.Spec Filter
open scoped ENNReal Topology

variable {V N Ω Key : Type} [MeasurableSpace V] [MeasurableSpace N] [MeasurableSpace Ω]

/-- The updates of the first `T` steps. -/
def upto (b : ℕ → List (Key × Key)) (T : ℕ) : List (Key × Key) := (List.range T).flatMap b

/-- The steps from step `M` on. -/
def later (M : ℕ) (b : ℕ → List (Key × Key)) : ℕ → List (Key × Key) := fun t => b (M + t)

theorem upto_add (b : ℕ → List (Key × Key)) (M T : ℕ) : upto b (M + T) = upto b M ++ upto (later M b) T := by
  unfold upto later
  rw [List.range_add, List.flatMap_append, List.flatMap_map]

theorem upto_length {b : ℕ → List (Key × Key)} {q : ℕ} {T : ℕ} (h : ∀ t < T, (b t).length = q) : (upto b T).length = T * q := by
  induction T with
  | zero => simp [upto]
  | succ T ih =>
    unfold upto at ih ⊢
    rw [List.range_succ, List.flatMap_append, List.length_append, ih fun t ht => h t (by omega)]
    simp [h T (by omega)]
    ring

theorem chain_concat (a : V → ℝ) (move : N → V → V) (dr : Key → N × ℝ) (x : V) (k k' : List (Key × Key)) :
    chain a move dr x (k ++ k') = chain a move dr (chain a move dr x k) k' := by
  unfold chain
  rw [List.foldl_append]

/-- The sum of the readings of `h` after each of the first `T` steps. -/
noncomputable def total (h : V → ℝ) (a : V → ℝ) (move : N → V → V) (b : ℕ → List (Key × Key)) (T : ℕ) (x : V) (dr : Key → N × ℝ) : ℝ :=
  ∑ t ∈ Finset.range T, h (chain a move dr x (upto b (t + 1)))

theorem total_add (h : V → ℝ) (a : V → ℝ) (move : N → V → V) (b : ℕ → List (Key × Key)) (M T : ℕ) (x : V) (dr : Key → N × ℝ) :
    total h a move b (M + T) x dr = total h a move b M x dr + total h a move (later M b) T (chain a move dr x (upto b M)) dr := by
  unfold total
  rw [Finset.sum_range_add]
  congr 1
  refine Finset.sum_congr rfl fun t _ => ?_
  rw [← chain_concat, add_assoc, upto_add]

theorem total_measurable {h : V → ℝ} (hh : Measurable h) {a : V → ℝ} (ha : Measurable a) {move : N → V → V} (hmv : Measurable fun p : V × N => move p.2 p.1)
    (b : ℕ → List (Key × Key)) (T : ℕ) : Measurable fun p : V × (Key → N × ℝ) => total h a move b T p.1 p.2 := by
  unfold total
  refine Finset.measurable_sum _ fun t _ => ?_
  have := hh.comp (chain_measurable (Key := Key) ha hmv (upto b (t + 1)))
  exact this

theorem mem_allKeys {ks : List (Key × Key)} {k : Key × Key} (h : k ∈ ks) : k.1 ∈ allKeys ks ∧ k.2 ∈ allKeys ks :=
  ⟨List.mem_flatMap.mpr ⟨k, h, by simp⟩, List.mem_flatMap.mpr ⟨k, h, by simp⟩⟩

theorem total_congr (h : V → ℝ) (a : V → ℝ) (move : N → V → V) (b : ℕ → List (Key × Key)) (T : ℕ) (x : V) (d d' : Key → N × ℝ)
    (hd : ∀ k ∈ allKeys (upto b T), d k = d' k) : total h a move b T x d = total h a move b T x d' := by
  unfold total
  refine Finset.sum_congr rfl fun t ht => ?_
  have hsub : ∀ k ∈ upto b (t + 1), k ∈ upto b T := by
    intro k hk
    obtain ⟨m, rfl⟩ := Nat.exists_eq_add_of_le (Nat.succ_le_of_lt (Finset.mem_range.mp ht))
    rw [Nat.succ_eq_add_one, upto_add]
    exact List.mem_append_left _ hk
  rw [chain_congr _ _ d d' x _ fun k hk => ⟨hd _ (mem_allKeys (hsub k hk)).1, hd _ (mem_allKeys (hsub k hk)).2⟩]

theorem total_bound {h : V → ℝ} {B : ℝ} (hh : ∀ x, |h x| ≤ B) (a : V → ℝ) (move : N → V → V) (b : ℕ → List (Key × Key)) (T : ℕ) (x : V) (dr : Key → N × ℝ) :
    |total h a move b T x dr| ≤ T * B := by
  unfold total
  refine (Finset.abs_sum_le_sum_abs _ _).trans ((Finset.sum_le_sum fun t _ => hh _).trans ?_)
  simp

theorem nodup_later {b : ℕ → List (Key × Key)} {M T : ℕ} (hd : (allKeys (upto b (M + T))).Nodup) : (allKeys (upto (later M b) T)).Nodup := by
  rw [upto_add] at hd
  unfold allKeys at hd ⊢
  rw [List.flatMap_append, List.nodup_append] at hd
  exact hd.2.1

theorem nodup_upto {b : ℕ → List (Key × Key)} {M T : ℕ} (hd : (allKeys (upto b (M + T))).Nodup) : (allKeys (upto b M)).Nodup := by
  rw [upto_add] at hd
  unfold allKeys at hd ⊢
  rw [List.flatMap_append, List.nodup_append] at hd
  exact hd.1

variable {P : Measure Ω} [IsProbabilityMeasure P] {ν : Measure N} [IsProbabilityMeasure ν] {noise : Key → Ω → N} {uniform : Key → Ω → ℝ}

/-- What happens after some updates, with draws that are still fresh, is independent of them. -/
theorem chain_split [Nonempty N] (hI : Independent P ν noise uniform) {ψ : V → ℂ} (hψ : Measurable ψ) {move : N → V → V}
    (hmv : Measurable fun p : V × N => move p.2 p.1) (ks ks' : List (Key × Key)) (hd : (allKeys (ks ++ ks')).Nodup) (x : V)
    {G : V → (Key → N × ℝ) → ℝ} (hG : Measurable fun p : V × (Key → N × ℝ) => G p.1 p.2) {B : ℝ} (hB : ∀ y d, |G y d| ≤ B)
    (hdep : ∀ y d d', (∀ k ∈ allKeys ks', d k = d' k) → G y d = G y d') :
    ∫ ω, G (chain (fun y => ‖ψ y‖ ^ 2) move (fun k => (noise k ω, uniform k ω)) x ks) (fun k => (noise k ω, uniform k ω)) ∂P =
      (U (ν.prod unif) (metro ψ move))^[ks.length] (fun y => ∫ ω, G y (fun k => (noise k ω, uniform k ω)) ∂P) x := by
  classical
  have ha : Measurable fun y => ‖ψ y‖ ^ 2 := hψ.norm.pow_const 2
  have hdr : Measurable fun ω => fun k => (noise k ω, uniform k ω) := measurable_pi_iff.mpr hI.measurable
  have hc : Measurable fun ω => chain (fun y => ‖ψ y‖ ^ 2) move (fun k => (noise k ω, uniform k ω)) x ks := (chain_measurable ha hmv ks).comp (measurable_const.prodMk hdr)
  have hdd : (allKeys ks).Nodup ∧ ∀ k ∈ allKeys ks, k ∉ allKeys ks' := by
    unfold allKeys at hd ⊢
    rw [List.flatMap_append, List.nodup_append] at hd
    exact ⟨hd.1, fun k hk hk' => hd.2.2 k hk k hk' rfl⟩
  let d0 : N × ℝ := (Classical.arbitrary N, 0)
  let ext (l : List Key) : (l.toFinset → N × ℝ) → Key → N × ℝ := fun v q => if hq : q ∈ l.toFinset then v ⟨q, hq⟩ else d0
  have hext : ∀ l : List Key, Measurable (ext l) := by
    intro l
    refine measurable_pi_iff.mpr fun q => ?_
    by_cases hq : q ∈ l.toFinset
    · simp only [ext, dif_pos hq]; exact measurable_pi_apply _
    · simp only [ext, dif_neg hq]; exact measurable_const
  let D : Ω → Key → N × ℝ := fun ω => ext (allKeys ks') fun q => (noise q ω, uniform q ω)
  have hD' : Measurable fun ω => fun q : (allKeys ks').toFinset => (noise q.1 ω, uniform q.1 ω) := measurable_pi_iff.mpr fun q => hI.measurable q.1
  have hD : Measurable D := (hext _).comp hD'
  have hGD : ∀ y ω, G y (fun k => (noise k ω, uniform k ω)) = G y (D ω) := by
    intro y ω
    refine hdep y _ _ fun k hk => ?_
    simp only [D, ext, dif_pos (List.mem_toFinset.mpr hk)]
  have i1 : IndepFun (fun ω => chain (fun y => ‖ψ y‖ ^ 2) move (fun k => (noise k ω, uniform k ω)) x ks) D P := by
    have hf := hI.indep.indepFun_finset (allKeys ks).toFinset (allKeys ks').toFinset (by
      rw [Finset.disjoint_left]
      intro q hq hq'
      exact hdd.2 q (List.mem_toFinset.mp hq) (List.mem_toFinset.mp hq')) hI.measurable
    have hφ : Measurable fun v => chain (fun y => ‖ψ y‖ ^ 2) move (ext (allKeys ks) v) x ks := (chain_measurable ha hmv ks).comp (measurable_const.prodMk (hext _))
    have hcomp := hf.comp hφ (hext (allKeys ks'))
    refine hcomp.congr (Filter.Eventually.of_forall fun ω => ?_) (Filter.Eventually.of_forall fun ω => rfl)
    simp only [Function.comp_apply]
    refine chain_congr _ _ _ _ _ _ fun q hq => ?_
    have m1 := List.mem_toFinset.mpr (mem_allKeys hq).1
    have m2 := List.mem_toFinset.mpr (mem_allKeys hq).2
    simp only [ext, dif_pos m1, dif_pos m2, and_self]
  have hmap := (indepFun_iff_map_prod_eq_prod_map_map hc.aemeasurable hD.aemeasurable).mp i1
  have hp1 := Measure.isProbabilityMeasure_map (μ := P) hc.aemeasurable
  have hp2 := Measure.isProbabilityMeasure_map (μ := P) hD.aemeasurable
  simp_rw [hGD]
  have e0 := integral_map (μ := P) (hc.prodMk hD).aemeasurable hG.aestronglyMeasurable
  rw [← e0, hmap, integral_prod _ (bounded_integrable _ hG fun p => abs_le.mp (hB _ _))]
  have e1 : ∀ y, ∫ d, G y d ∂(P.map D) = ∫ ω, G y (D ω) ∂P := fun y => by
    have hGy : Measurable (G y) := by
      have h := hG.comp (measurable_prodMk_left (x := y))
      exact h
    exact integral_map hD.aemeasurable hGy.aestronglyMeasurable
  simp_rw [e1]
  have hf : Bdd (fun y => ∫ ω, G y (D ω) ∂P) B := by
    have hm : Measurable fun p : V × Ω => G p.1 (D p.2) := by
      have h := hG.comp (measurable_fst.prodMk (hD.comp measurable_snd) : Measurable fun p : V × Ω => (p.1, D p.2))
      exact h
    refine ⟨hm.stronglyMeasurable.integral_prod_right'.measurable, fun y => ?_⟩
    have hmy : Measurable fun ω => G y (D ω) := by
      have h := hm.comp (measurable_prodMk_left (x := y))
      exact h
    exact abs_le.mpr (average_between P hmy fun ω => abs_le.mp (hB _ _))
  rw [integral_map hc.aemeasurable hf.meas.aestronglyMeasurable]
  exact chain_iter hI hψ hmv ks hdd.1 x hf

section moments

variable [Nonempty N] (hI : Independent P ν noise uniform) {ψ : V → ℂ} (hψ : Measurable ψ) {move : N → V → V} (hmv : Measurable fun p : V × N => move p.2 p.1)
include hI hψ hmv

/-- One step, then the others. -/
theorem total_split (Φ : ℝ → ℝ) (hΦ : Measurable Φ) {C : ℝ} {h : V → ℝ} {B : ℝ} (hh : Bdd h B) {b : ℕ → List (Key × Key)} {T : ℕ}
    (hd : (allKeys (upto b (T + 1))).Nodup) (hC : ∀ s, |s| ≤ B + T * B → |Φ s| ≤ C) (x : V) :
    ∫ ω, Φ (total h (fun y => ‖ψ y‖ ^ 2) move b (T + 1) x (fun k => (noise k ω, uniform k ω))) ∂P =
      (U (ν.prod unif) (metro ψ move))^[(b 0).length]
        (fun y => ∫ ω, Φ (h y + total h (fun y => ‖ψ y‖ ^ 2) move (later 1 b) T y (fun k => (noise k ω, uniform k ω))) ∂P) x := by
  have ha : Measurable fun y => ‖ψ y‖ ^ 2 := hψ.norm.pow_const 2
  have e1 : upto b 1 = b 0 := by simp [upto]
  rw [add_comm T 1, upto_add, e1] at hd
  have hG : Measurable fun p : V × (Key → N × ℝ) => Φ (h p.1 + total h (fun y => ‖ψ y‖ ^ 2) move (later 1 b) T p.1 p.2) := by
    have h1 := total_measurable (Key := Key) hh.meas ha hmv (later 1 b) T
    exact hΦ.comp ((hh.meas.comp measurable_fst).add h1)
  have := chain_split hI hψ hmv (b 0) (upto (later 1 b) T) hd x (G := fun y d => Φ (h y + total h (fun y => ‖ψ y‖ ^ 2) move (later 1 b) T y d)) hG (B := C)
    (fun y d => hC _ ((abs_add_le _ _).trans (add_le_add (hh.le y) (total_bound hh.le _ _ _ _ _ _))))
    (fun y d d' hdd => by
      have := total_congr h (fun y => ‖ψ y‖ ^ 2) move (later 1 b) T y d d' hdd
      simp only [this])
  rw [← this]
  congr 1
  funext ω
  rw [add_comm T 1, total_add, e1]
  congr 2
  simp [total, e1]

theorem total_obs {h : V → ℝ} (hh : Measurable h) (b : ℕ → List (Key × Key)) (T : ℕ) (x : V) :
    Measurable fun ω => total h (fun y => ‖ψ y‖ ^ 2) move b T x (fun k => (noise k ω, uniform k ω)) := by
  have ha : Measurable fun y => ‖ψ y‖ ^ 2 := hψ.norm.pow_const 2
  have hdr : Measurable fun ω => fun k => (noise k ω, uniform k ω) := measurable_pi_iff.mpr hI.measurable
  have := (total_measurable (Key := Key) hh ha hmv b T).comp ((measurable_const (a := x)).prodMk hdr)
  exact this

theorem total_mean {h : V → ℝ} {B : ℝ} (hh : Bdd h B) {q T : ℕ} {b : ℕ → List (Key × Key)} (hq : ∀ t < T, (b t).length = q) (hd : (allKeys (upto b T)).Nodup) (x : V) :
    ∫ ω, total h (fun y => ‖ψ y‖ ^ 2) move b T x (fun k => (noise k ω, uniform k ω)) ∂P = mean (ν.prod unif) (metro ψ move) q h T x := by
  induction T generalizing b x with
  | zero => simp [total, mean]
  | succ T ih =>
    have hd' : (allKeys (upto (later 1 b) T)).Nodup := nodup_later (by rwa [add_comm 1 T])
    rw [total_split hI hψ hmv (fun s => s) measurable_id hh hd (fun s hs => hs) x, hq 0 (by omega)]
    unfold mean
    refine congrArg (fun f => (U (ν.prod unif) (metro ψ move))^[q] f x) (funext fun y => ?_)
    have hi : Integrable (fun ω => total h (fun y => ‖ψ y‖ ^ 2) move (later 1 b) T y (fun k => (noise k ω, uniform k ω))) P :=
      bounded_integrable P (total_obs hI hψ hmv hh.meas _ _ _) fun ω => abs_le.mp (total_bound hh.le _ _ _ _ _ _)
    rw [integral_add (integrable_const _) hi, ih (b := later 1 b) (fun t ht => hq (1 + t) (by omega)) hd' y]
    simp

theorem total_second {h : V → ℝ} {B : ℝ} (hh : Bdd h B) {q T : ℕ} {b : ℕ → List (Key × Key)} (hq : ∀ t < T, (b t).length = q) (hd : (allKeys (upto b T)).Nodup) (x : V) :
    ∫ ω, total h (fun y => ‖ψ y‖ ^ 2) move b T x (fun k => (noise k ω, uniform k ω)) ^ 2 ∂P = second (ν.prod unif) (metro ψ move) q h T x := by
  induction T generalizing b x with
  | zero => simp [total, second]
  | succ T ih =>
    have hd' : (allKeys (upto (later 1 b) T)).Nodup := nodup_later (by rwa [add_comm 1 T])
    rw [total_split hI hψ hmv (fun s => s ^ 2) (measurable_id.pow_const 2) hh hd (C := (B + T * B) ^ 2) (fun s hs => by
      rw [abs_pow]
      exact pow_le_pow_left₀ (abs_nonneg _) hs 2) x, hq 0 (by omega)]
    unfold second
    refine congrArg (fun f => (U (ν.prod unif) (metro ψ move))^[q] f x) (funext fun y => ?_)
    have hm := total_obs hI hψ hmv hh.meas (later 1 b) T y
    have hb : Bdd (fun ω => total h (fun y => ‖ψ y‖ ^ 2) move (later 1 b) T y (fun k => (noise k ω, uniform k ω))) (T * B) := ⟨hm, fun ω => total_bound hh.le _ _ _ _ _ _⟩
    have hi := hb.int P
    have e : ∀ ω, (h y + total h (fun y => ‖ψ y‖ ^ 2) move (later 1 b) T y (fun k => (noise k ω, uniform k ω))) ^ 2 =
        h y ^ 2 + 2 * (h y * total h (fun y => ‖ψ y‖ ^ 2) move (later 1 b) T y (fun k => (noise k ω, uniform k ω))) +
          total h (fun y => ‖ψ y‖ ^ 2) move (later 1 b) T y (fun k => (noise k ω, uniform k ω)) ^ 2 := fun ω => by ring
    simp_rw [e]
    have i1 : Integrable (fun ω => 2 * (h y * total h (fun y => ‖ψ y‖ ^ 2) move (later 1 b) T y (fun k => (noise k ω, uniform k ω)))) P := (hi.const_mul _).const_mul _
    have i2 : Integrable (fun ω => h y ^ 2 + 2 * (h y * total h (fun y => ‖ψ y‖ ^ 2) move (later 1 b) T y (fun k => (noise k ω, uniform k ω)))) P := (integrable_const _).add i1
    rw [integral_add i2 (hb.pow.int P), integral_add (integrable_const _) i1,
      integral_const_mul, integral_const_mul, ih (b := later 1 b) (fun t ht => hq (1 + t) (by omega)) hd' y,
      total_mean hI hψ hmv hh (b := later 1 b) (fun t ht => hq (1 + t) (by omega)) hd' y]
    simp

end moments

/-! ### Averages over starts in the distribution -/

theorem chain_law [Nonempty N] (hI : Independent P ν noise uniform) {μ : Measure V} {ψ : V → ℂ} (hψ : Measurable ψ) [IsProbabilityMeasure (walkerLaw μ ψ)] {move : N → V → V}
    (hmv : Measurable fun p : V × N => move p.2 p.1) (hr : Reversible μ ν move) (ks : List (Key × Key)) (hd : (allKeys ks).Nodup) :
    ((walkerLaw μ ψ).prod P).map (fun p => chain (fun y => ‖ψ y‖ ^ 2) move (fun k => (noise k p.2, uniform k p.2)) p.1 ks) = walkerLaw μ ψ := by
  have ha : Measurable fun y => ‖ψ y‖ ^ 2 := hψ.norm.pow_const 2
  have hdr : Measurable fun ω => fun k => (noise k ω, uniform k ω) := measurable_pi_iff.mpr hI.measurable
  have hc : Measurable fun p : V × Ω => chain (fun y => ‖ψ y‖ ^ 2) move (fun k => (noise k p.2, uniform k p.2)) p.1 ks := by
    have h := (chain_measurable (Key := Key) ha hmv ks).comp (measurable_fst.prodMk (hdr.comp measurable_snd) : Measurable fun p : V × Ω => (p.1, fun k => (noise k p.2, uniform k p.2)))
    exact h
  have hden : Measurable fun x => ENNReal.ofReal (‖ψ x‖ ^ 2 / ∫ y, ‖ψ y‖ ^ 2 ∂μ) := (ha.div_const _).ennreal_ofReal
  refine Measure.ext_of_lintegral _ fun f hf => ?_
  have hfc : Measurable fun p : V × Ω => f (chain (fun y => ‖ψ y‖ ^ 2) move (fun k => (noise k p.2, uniform k p.2)) p.1 ks) := hf.comp hc
  rw [lintegral_map hf hc, lintegral_prod _ hfc.aemeasurable]
  have hin : Measurable fun x => ∫⁻ ω, f (chain (fun y => ‖ψ y‖ ^ 2) move (fun k => (noise k ω, uniform k ω)) x ks) ∂P := hfc.lintegral_prod_right'
  have h0 := chain_invariant hI ha (fun x => by positivity) hmv hr ks hd hf
  have hZ : 0 ≤ ∫ y, ‖ψ y‖ ^ 2 ∂μ := integral_nonneg fun y => by positivity
  have es : ∀ x, ENNReal.ofReal (‖ψ x‖ ^ 2 / ∫ y, ‖ψ y‖ ^ 2 ∂μ) = ENNReal.ofReal (∫ y, ‖ψ y‖ ^ 2 ∂μ)⁻¹ * ENNReal.ofReal (‖ψ x‖ ^ 2) := by
    intro x
    rw [← ENNReal.ofReal_mul (inv_nonneg.mpr hZ), div_eq_inv_mul]
  have hw : ∀ g : V → ℝ≥0∞, Measurable g → ∫⁻ x, g x ∂walkerLaw μ ψ = ENNReal.ofReal (∫ y, ‖ψ y‖ ^ 2 ∂μ)⁻¹ * ∫⁻ x, ENNReal.ofReal (‖ψ x‖ ^ 2) * g x ∂μ := by
    intro g hg
    unfold walkerLaw
    have hm : Measurable fun x => ENNReal.ofReal (‖ψ x‖ ^ 2) * g x := ha.ennreal_ofReal.mul hg
    rw [lintegral_withDensity_eq_lintegral_mul _ hden hg, ← lintegral_const_mul _ hm]
    refine lintegral_congr fun x => ?_
    rw [Pi.mul_apply, es, mul_assoc]
  rw [hw _ hin, hw _ hf, h0]

theorem far_add {X : Type} (f g : X → ℝ) (r : ℝ) (x : X) : far (fun x => f x + g x) r x ≤ far f (r / 2) x + far g (r / 2) x := by
  unfold far
  simp only [Set.indicator_apply, Set.mem_ofPred_eq]
  have := abs_add_le (f x) (g x)
  split_ifs with h1 h2 h3 h3 h2 h3 h3
  all_goals first | (exfalso; linarith) | norm_num

theorem far_sq {X : Type} (f : X → ℝ) {r : ℝ} (hr : 0 < r) (x : X) : far f r x ≤ f x ^ 2 / r ^ 2 := by
  unfold far
  simp only [Set.indicator_apply, Set.mem_ofPred_eq]
  split_ifs with h
  · rw [le_div_iff₀ (by positivity), one_mul, ← sq_abs (f x)]
    exact pow_le_pow_left₀ hr.le h 2
  · positivity

theorem far_abs {X : Type} (f : X → ℝ) {r : ℝ} (hr : 0 < r) (x : X) : far f r x ≤ |f x| / r := by
  unfold far
  simp only [Set.indicator_apply, Set.mem_ofPred_eq]
  split_ifs with h
  · rw [le_div_iff₀ hr, one_mul]
    exact h
  · positivity

theorem far_sum {X : Type} {M : ℕ} (hM : 0 < M) (f : ℕ → X → ℝ) (r : ℝ) (x : X) : far (fun x => ∑ t ∈ Finset.range M, f t x) r x ≤ ∑ t ∈ Finset.range M, far (f t) (r / M) x := by
  have hMr : (0 : ℝ) < M := by exact_mod_cast hM
  have hn : ∀ t, 0 ≤ far (f t) (r / M) x := fun t => Set.indicator_nonneg (fun _ _ => zero_le_one) x
  by_cases h : r ≤ |∑ t ∈ Finset.range M, f t x|
  · have : ∃ t ∈ Finset.range M, r / M ≤ |f t x| := by
      by_contra hcon
      push Not at hcon
      have h1 := Finset.sum_lt_sum_of_nonempty (Finset.nonempty_range_iff.mpr hM.ne') hcon
      rw [Finset.sum_const, Finset.card_range, nsmul_eq_mul, mul_div_cancel₀ _ hMr.ne'] at h1
      exact absurd (h.trans (Finset.abs_sum_le_sum_abs _ _)) (not_le.mpr h1)
    obtain ⟨t, ht, h2⟩ := this
    have e1 : far (fun x => ∑ t ∈ Finset.range M, f t x) r x = 1 := by simp [far, Set.indicator_apply, h]
    have e2 : far (f t) (r / M) x = 1 := by simp [far, Set.indicator_apply, h2]
    rw [e1, ← e2]
    exact Finset.single_le_sum (f := fun t => far (f t) (r / M) x) (fun t _ => hn t) ht
  · have e1 : far (fun x => ∑ t ∈ Finset.range M, f t x) r x = 0 := by simp [far, Set.indicator_apply, h]
    rw [e1]
    exact Finset.sum_nonneg fun t _ => hn t

theorem total_add_quantity (g h : V → ℝ) (a : V → ℝ) (move : N → V → V) (b : ℕ → List (Key × Key)) (T : ℕ) (x : V) (dr : Key → N × ℝ) :
    total (fun y => g y + h y) a move b T x dr = total g a move b T x dr + total h a move b T x dr := by
  unfold total
  rw [Finset.sum_add_distrib]

/-- Averages of readings of a quantity with average zero are rarely far from zero, if the chain starts in the distribution. -/
theorem stationary {μ : Measure V} {ψ : V → ℂ} (hψ : Measurable ψ) [IsProbabilityMeasure (walkerLaw μ ψ)] {move : N → V → V}
    (hmv : Measurable fun p : V × N => move p.2 p.1) (hr : Reversible μ ν move) (hre : Reach (ν.prod unif) (metro ψ move) (walkerLaw μ ψ))
    {g : V → ℝ} (hg : Measurable g) (hi : Integrable g (walkerLaw μ ψ)) (hz : ∫ y, g y ∂walkerLaw μ ψ = 0) {δ ε : ℝ} (hδ : 0 < δ) (hε : 0 < ε) :
    ∃ T₀ : ℕ, ∀ (Ω Key : Type) (_ : MeasurableSpace Ω) (P : Measure Ω) (_ : IsProbabilityMeasure P) (noise : Key → Ω → N) (uniform : Key → Ω → ℝ),
      Independent P ν noise uniform → ∀ q, 0 < q → ∀ (b : ℕ → List (Key × Key)) (T : ℕ), T₀ ≤ T → (∀ t < T, (b t).length = q) → (allKeys (upto b T)).Nodup →
      ∫ p, far (fun p : V × Ω => total g (fun y => ‖ψ y‖ ^ 2) move b T p.1 (fun k => (noise k p.2, uniform k p.2))) (δ * T) p ∂((walkerLaw μ ψ).prod P) ≤ ε := by
  have hN : Nonempty N := nonempty_of_isProbabilityMeasure ν
  have ha : Measurable fun y => ‖ψ y‖ ^ 2 := hψ.norm.pow_const 2
  have R := metro_rev hψ hmv hr
  -- truncation
  have hgr : ∀ K : ℕ, Measurable fun y => g y * far g K y := fun K => hg.mul (far_bdd hg K).meas
  have hf0 : ∀ (K : ℕ) y, 0 ≤ far g K y := fun K y => Set.indicator_nonneg (fun _ _ => zero_le_one) y
  have hf1 : ∀ (K : ℕ) y, far g K y ≤ 1 := fun K y => (abs_le.mp ((far_bdd hg K).le y)).2
  have hle : ∀ (K : ℕ) y, |g y * far g K y| ≤ |g y| := fun K y => by
    rw [abs_mul, abs_of_nonneg (hf0 K y)]
    exact mul_le_of_le_one_right (abs_nonneg _) (hf1 K y)
  have hlim : Tendsto (fun K : ℕ => ∫ y, |g y * far g K y| ∂walkerLaw μ ψ) atTop (𝓝 0) := by
    have := tendsto_integral_of_dominated_convergence (μ := walkerLaw μ ψ) (F := fun (K : ℕ) y => |g y * far g K y|) (f := fun _ => 0) (fun y => |g y|)
      (fun K => (continuous_abs.measurable.comp (hgr K)).aestronglyMeasurable) hi.abs (fun K => Filter.Eventually.of_forall fun y => by
        rw [Real.norm_eq_abs, abs_abs]
        exact hle K y)
      (Filter.Eventually.of_forall fun y => by
        have h1 := (far_to_zero g y).const_mul (g y)
        rw [mul_zero] at h1
        have h2 := h1.abs
        rwa [abs_zero] at h2)
    simpa using this
  obtain ⟨K, hK⟩ := (hlim.eventually (gt_mem_nhds (by positivity : (0 : ℝ) < ε * δ / 8))).exists
  have hir : Integrable (fun y => g y * far g K y) (walkerLaw μ ψ) := hi.mono (hgr K).aestronglyMeasurable (Filter.Eventually.of_forall fun y => hle K y)
  set c := ∫ y, (g y - g y * far g K y) ∂walkerLaw μ ψ with hc
  have hcle : |c| ≤ ε * δ / 8 := by
    rw [hc, integral_sub hi hir, hz, zero_sub, abs_neg]
    exact (abs_integral_le_integral_abs).trans hK.le
  -- the bounded part
  have hgb : Bdd (fun y => g y - g y * far g K y - c) (K + |c|) := by
    refine ⟨(hg.sub (hgr K)).sub measurable_const, fun y => (abs_sub _ _).trans (add_le_add ?_ le_rfl)⟩
    by_cases hy : (K : ℝ) ≤ |g y|
    · have : far g K y = 1 := by simp [far, Set.indicator_apply, hy]
      rw [this, mul_one, sub_self, abs_zero]
      positivity
    · have : far g K y = 0 := by simp [far, Set.indicator_apply, hy]
      rw [this, mul_zero, sub_zero]
      exact (not_le.mp hy).le
  have hbz : ∫ y, (g y - g y * far g K y - c) ∂walkerLaw μ ψ = 0 := by
    have i1 : Integrable (fun y => g y - g y * far g K y) (walkerLaw μ ψ) := hi.sub hir
    rw [integral_sub i1 (integrable_const _), ← hc]
    simp
  obtain ⟨T₀, hT₀⟩ := second_small R hre ⟨_, hgb⟩ hbz (ε := ε * δ ^ 2 / 8) (by positivity)
  refine ⟨T₀ + 1, fun Ω Key _ P _ noise uniform hI q hq b T hT hlen hnd => ?_⟩
  have hTr : (0 : ℝ) < T := by exact_mod_cast (by omega : 0 < T)
  have hr0 : 0 < δ * T / 2 := by positivity
  have hdr : Measurable fun ω => fun k => (noise k ω, uniform k ω) := measurable_pi_iff.mpr hI.measurable
  have hpd : Measurable fun p : V × Ω => (p.1, fun k => (noise k p.2, uniform k p.2)) := measurable_fst.prodMk (hdr.comp measurable_snd)
  have mtot : ∀ h : V → ℝ, Measurable h → Measurable fun p : V × Ω => total h (fun y => ‖ψ y‖ ^ 2) move b T p.1 (fun k => (noise k p.2, uniform k p.2)) := fun h hh => by
    have h1 := (total_measurable (Key := Key) hh ha hmv b T).comp hpd
    exact h1
  set rest : V → ℝ := fun y => g y * far g K y + c with hrest
  have mrest : Measurable rest := (hgr K).add measurable_const
  have irest : Integrable rest (walkerLaw μ ψ) := hir.add (integrable_const _)
  set A := fun p : V × Ω => total (fun y => g y - g y * far g K y - c) (fun y => ‖ψ y‖ ^ 2) move b T p.1 (fun k => (noise k p.2, uniform k p.2)) with hA
  set D := fun p : V × Ω => total rest (fun y => ‖ψ y‖ ^ 2) move b T p.1 (fun k => (noise k p.2, uniform k p.2)) with hD
  have hsum : (fun p : V × Ω => total g (fun y => ‖ψ y‖ ^ 2) move b T p.1 (fun k => (noise k p.2, uniform k p.2))) = fun p => A p + D p := by
    funext p
    simp only [hA, hD]
    rw [← total_add_quantity]
    congr 1
    funext y
    simp only [hrest]
    ring
  have mA : Measurable A := mtot _ hgb.meas
  have mD : Measurable D := mtot _ mrest
  rw [hsum]
  -- the bounded part is rarely large
  have bA : Bdd A (T * (K + |c|)) := ⟨mA, fun p => total_bound hgb.le _ _ _ _ _ _⟩
  have h1 : ∫ p, far A (δ * T / 2) p ∂((walkerLaw μ ψ).prod P) ≤ ε / 2 := by
    have hsq : ∫ p, A p ^ 2 ∂((walkerLaw μ ψ).prod P) ≤ ε * δ ^ 2 / 8 * T ^ 2 := by
      rw [integral_prod _ (bA.pow.int _)]
      have : ∀ y, ∫ ω, A (y, ω) ^ 2 ∂P = second (ν.prod unif) (metro ψ move) q (fun y => g y - g y * far g K y - c) T y := fun y => total_second hI hψ hmv hgb hlen hnd y
      simp_rw [this]
      exact hT₀ q hq T (by omega)
    have h2 : ∫ p, far A (δ * T / 2) p ∂((walkerLaw μ ψ).prod P) ≤ ∫ p, A p ^ 2 / (δ * T / 2) ^ 2 ∂((walkerLaw μ ψ).prod P) :=
      integral_mono ((far_bdd mA _).int _) ((bA.pow.int _).div_const _) fun p => far_sq A hr0 p
    refine h2.trans ?_
    rw [integral_div, div_le_iff₀ (by positivity)]
    refine hsq.trans (le_of_eq ?_)
    ring
  -- so is the rest
  have h2 : ∫ p, far D (δ * T / 2) p ∂((walkerLaw μ ψ).prod P) ≤ ε / 2 := by
    have hone : ∀ t ∈ Finset.range T, Integrable (fun p : V × Ω => |rest (chain (fun y => ‖ψ y‖ ^ 2) move (fun k => (noise k p.2, uniform k p.2)) p.1 (upto b (t + 1)))|) ((walkerLaw μ ψ).prod P) ∧
        ∫ p : V × Ω, |rest (chain (fun y => ‖ψ y‖ ^ 2) move (fun k => (noise k p.2, uniform k p.2)) p.1 (upto b (t + 1)))| ∂((walkerLaw μ ψ).prod P) = ∫ y, |rest y| ∂walkerLaw μ ψ := by
      intro t ht
      have hnd' : (allKeys (upto b (t + 1))).Nodup := by
        obtain ⟨m, rfl⟩ := Nat.exists_eq_add_of_le (Nat.succ_le_of_lt (Finset.mem_range.mp ht))
        exact nodup_upto hnd
      have hl := chain_law hI hψ (μ := μ) hmv hr (upto b (t + 1)) hnd'
      have hcm : Measurable fun p : V × Ω => chain (fun y => ‖ψ y‖ ^ 2) move (fun k => (noise k p.2, uniform k p.2)) p.1 (upto b (t + 1)) := by
        have h := (chain_measurable (Key := Key) ha hmv (upto b (t + 1))).comp hpd
        exact h
      have hia : Integrable (fun y => |rest y|) (((walkerLaw μ ψ).prod P).map fun p => chain (fun y => ‖ψ y‖ ^ 2) move (fun k => (noise k p.2, uniform k p.2)) p.1 (upto b (t + 1))) := by
        rw [hl]
        exact irest.abs
      refine ⟨hia.comp_measurable hcm, ?_⟩
      conv_rhs => rw [← hl]
      exact (integral_map hcm.aemeasurable hia.aestronglyMeasurable).symm
    have hbd : ∀ p, far D (δ * T / 2) p ≤
        (∑ t ∈ Finset.range T, |rest (chain (fun y => ‖ψ y‖ ^ 2) move (fun k => (noise k p.2, uniform k p.2)) p.1 (upto b (t + 1)))|) / (δ * T / 2) := fun p =>
      (far_abs D hr0 p).trans (div_le_div_of_nonneg_right (Finset.abs_sum_le_sum_abs _ _) hr0.le)
    have h3 := integral_mono ((far_bdd mD (δ * T / 2)).int ((walkerLaw μ ψ).prod P)) ((integrable_finsetSum _ fun t ht => (hone t ht).1).div_const (δ * T / 2)) hbd
    refine h3.trans ?_
    rw [integral_div, integral_finsetSum _ fun t ht => (hone t ht).1, Finset.sum_congr rfl fun t ht => (hone t ht).2, Finset.sum_const, Finset.card_range, nsmul_eq_mul,
      div_le_iff₀ hr0]
    have h4 : ∫ y, |rest y| ∂walkerLaw μ ψ ≤ ε * δ / 4 := by
      have h5 : ∫ y, |rest y| ∂walkerLaw μ ψ ≤ ∫ y, (|g y * far g K y| + |c|) ∂walkerLaw μ ψ := integral_mono irest.abs (hir.abs.add (integrable_const _)) fun y => abs_add_le _ _
      rw [integral_add hir.abs (integrable_const _)] at h5
      simp only [integral_const, probReal_univ, one_smul] at h5
      linarith
    nlinarith
  have h3 := integral_mono ((far_bdd (mA.add mD) (δ * T)).int ((walkerLaw μ ψ).prod P)) (((far_bdd mA (δ * T / 2)).int _).add ((far_bdd mD (δ * T / 2)).int _)) fun p => far_add A D (δ * T) p
  refine h3.trans ?_
  rw [integral_add' ((far_bdd mA (δ * T / 2)).int _) ((far_bdd mD (δ * T / 2)).int _)]
  linarith

/-- **Law of large numbers.** Averages of readings of a quantity with average zero are rarely far from zero, from any start from which the chain converges. -/
theorem long_run {μ : Measure V} {ψ : V → ℂ} (hψ : Measurable ψ) [IsProbabilityMeasure (walkerLaw μ ψ)] {move : N → V → V}
    (hmv : Measurable fun p : V × N => move p.2 p.1) (hr : Reversible μ ν move) (hre : Reach (ν.prod unif) (metro ψ move) (walkerLaw μ ψ)) {x : V}
    (hx : ∀ ε : ℝ, 0 < ε → ∃ N, ∀ n ≥ N, ∀ f : V → ℝ, Bdd f 1 → |(U (ν.prod unif) (metro ψ move))^[n] f x - ∫ y, f y ∂walkerLaw μ ψ| ≤ ε)
    {g : V → ℝ} (hg : Measurable g) (hi : Integrable g (walkerLaw μ ψ)) (hz : ∫ y, g y ∂walkerLaw μ ψ = 0) {δ ε : ℝ} (hδ : 0 < δ) (hε : 0 < ε) :
    ∃ T₀ : ℕ, ∀ (Ω Key : Type) (_ : MeasurableSpace Ω) (P : Measure Ω) (_ : IsProbabilityMeasure P) (noise : Key → Ω → N) (uniform : Key → Ω → ℝ),
      Independent P ν noise uniform → ∀ q, 0 < q → ∀ (b : ℕ → List (Key × Key)) (T : ℕ), T₀ ≤ T → (∀ t < T, (b t).length = q) → (allKeys (upto b T)).Nodup →
      ∫ ω, far (fun ω : Ω => total g (fun y => ‖ψ y‖ ^ 2) move b T x (fun k => (noise k ω, uniform k ω))) (δ * T) ω ∂P ≤ ε := by
  have hN : Nonempty N := nonempty_of_isProbabilityMeasure ν
  have ha : Measurable fun y => ‖ψ y‖ ^ 2 := hψ.norm.pow_const 2
  have R := metro_rev hψ hmv hr
  obtain ⟨M', hM'⟩ := hx (ε / 3) (by positivity)
  set M := M' + 1 with hM
  have hMr : (0 : ℝ) < M := by exact_mod_cast (by omega : 0 < M)
  obtain ⟨r₀, hr₀⟩ := tight R hx hg (ε := ε / 3 / M) (by positivity)
  obtain ⟨T₁, hT₁⟩ := stationary hψ hmv hr hre hg hi hz (δ := δ / 2) (ε := ε / 3) (by positivity) (by positivity)
  obtain ⟨T₂, hT₂⟩ := exists_nat_ge (r₀ * (2 * M) / δ)
  refine ⟨M + T₁ + T₂, fun Ω Key _ P _ noise uniform hI q hq b T' hT hlen hnd => ?_⟩
  obtain ⟨T, rfl⟩ := Nat.exists_eq_add_of_le (show M ≤ T' by omega)
  have hdr : Measurable fun ω => fun k => (noise k ω, uniform k ω) := measurable_pi_iff.mpr hI.measurable
  set A := fun ω : Ω => total g (fun y => ‖ψ y‖ ^ 2) move b M x (fun k => (noise k ω, uniform k ω)) with hA
  set D := fun ω : Ω => total g (fun y => ‖ψ y‖ ^ 2) move (later M b) T (chain (fun y => ‖ψ y‖ ^ 2) move (fun k => (noise k ω, uniform k ω)) x (upto b M))
    (fun k => (noise k ω, uniform k ω)) with hD
  have hsum : (fun ω : Ω => total g (fun y => ‖ψ y‖ ^ 2) move b (M + T) x (fun k => (noise k ω, uniform k ω))) = fun ω => A ω + D ω := by
    funext ω
    exact total_add _ _ _ _ _ _ _ _
  have mA : Measurable A := total_obs hI hψ hmv hg b M x
  have hcm : ∀ ks, Measurable fun ω => chain (fun y => ‖ψ y‖ ^ 2) move (fun k => (noise k ω, uniform k ω)) x ks := fun ks => by
    have h := (chain_measurable (Key := Key) ha hmv ks).comp ((measurable_const (a := x)).prodMk hdr)
    exact h
  have mD : Measurable D := by
    have h := (total_measurable (Key := Key) hg ha hmv (later M b) T).comp ((hcm (upto b M)).prodMk hdr)
    exact h
  have hnM : (allKeys (upto b M)).Nodup := nodup_upto hnd
  have hnT : (allKeys (upto (later M b) T)).Nodup := nodup_later hnd
  rw [hsum]
  set r := δ * ((M + T : ℕ) : ℝ) with hrr
  have hTle : (T₂ : ℝ) ≤ ((M + T : ℕ) : ℝ) := by exact_mod_cast (by omega : T₂ ≤ M + T)
  -- the beginning
  have h1 : ∫ ω, far A (r / 2) ω ∂P ≤ ε / 3 := by
    have h2 : ∀ ω, far A (r / 2) ω ≤ ∑ t ∈ Finset.range M, far g (r / 2 / M) (chain (fun y => ‖ψ y‖ ^ 2) move (fun k => (noise k ω, uniform k ω)) x (upto b (t + 1))) := fun ω =>
      far_sum (by omega) (fun t ω => g (chain (fun y => ‖ψ y‖ ^ 2) move (fun k => (noise k ω, uniform k ω)) x (upto b (t + 1)))) (r / 2) ω
    have hb : ∀ t, Bdd (fun ω => far g (r / 2 / M) (chain (fun y => ‖ψ y‖ ^ 2) move (fun k => (noise k ω, uniform k ω)) x (upto b (t + 1)))) 1 := fun t =>
      ⟨(far_bdd hg _).meas.comp (hcm _), fun ω => (far_bdd hg _).le _⟩
    have h3 := integral_mono ((far_bdd mA (r / 2)).int P) (integrable_finsetSum _ fun t _ => (hb t).int P) h2
    refine h3.trans ?_
    rw [integral_finsetSum _ fun t _ => (hb t).int P]
    have hle : r₀ ≤ r / 2 / M := by
      rw [le_div_iff₀ hMr, hrr]
      rw [div_le_iff₀ hδ] at hT₂
      nlinarith
    have h4 : ∀ t ∈ Finset.range M, ∫ ω, far g (r / 2 / M) (chain (fun y => ‖ψ y‖ ^ 2) move (fun k => (noise k ω, uniform k ω)) x (upto b (t + 1))) ∂P ≤ ε / 3 / M := by
      intro t ht
      have hnd' : (allKeys (upto b (t + 1))).Nodup := by
        obtain ⟨m, hm⟩ := Nat.exists_eq_add_of_le (Nat.succ_le_of_lt (Finset.mem_range.mp ht))
        rw [hm] at hnM
        exact nodup_upto hnM
      rw [chain_iter hI hψ hmv (upto b (t + 1)) hnd' x (far_bdd hg _)]
      exact hr₀ _ hle _
    refine (Finset.sum_le_sum h4).trans (le_of_eq ?_)
    rw [Finset.sum_const, Finset.card_range, nsmul_eq_mul]
    field_simp
  -- what comes after
  have h2 : ∫ ω, far D (r / 2) ω ∂P ≤ 2 * (ε / 3) := by
    have hG : Measurable fun p : V × (Key → N × ℝ) => far (fun p : V × (Key → N × ℝ) => total g (fun y => ‖ψ y‖ ^ 2) move (later M b) T p.1 p.2) (r / 2) p :=
      (far_bdd (total_measurable (Key := Key) hg ha hmv (later M b) T) _).meas
    have hs := chain_split hI hψ hmv (upto b M) (upto (later M b) T) (by rwa [← upto_add]) x
      (G := fun y d => far (fun p : V × (Key → N × ℝ) => total g (fun y => ‖ψ y‖ ^ 2) move (later M b) T p.1 p.2) (r / 2) (y, d)) hG (B := 1)
      (fun y d => (far_bdd (total_measurable (Key := Key) hg ha hmv (later M b) T) _).le _)
      (fun y d d' hdd => by
        have := total_congr g (fun y => ‖ψ y‖ ^ 2) move (later M b) T y d d' hdd
        simp only [far, Set.indicator_apply, Set.mem_ofPred_eq, this])
    have e1 : ∫ ω, far D (r / 2) ω ∂P = (U (ν.prod unif) (metro ψ move))^[(upto b M).length]
        (fun y => ∫ ω, far (fun p : V × Ω => total g (fun y => ‖ψ y‖ ^ 2) move (later M b) T p.1 (fun k => (noise k p.2, uniform k p.2))) (r / 2) (y, ω) ∂P) x := hs
    have hpd : Measurable fun p : V × Ω => (p.1, fun k => (noise k p.2, uniform k p.2)) := measurable_fst.prodMk (hdr.comp measurable_snd)
    have mF : Measurable fun p : V × Ω => total g (fun y => ‖ψ y‖ ^ 2) move (later M b) T p.1 (fun k => (noise k p.2, uniform k p.2)) := by
      have h1 := (total_measurable (Key := Key) hg ha hmv (later M b) T).comp hpd
      exact h1
    set F := fun p : V × Ω => total g (fun y => ‖ψ y‖ ^ 2) move (later M b) T p.1 (fun k => (noise k p.2, uniform k p.2)) with hF
    have hbF := far_bdd mF (r / 2)
    have hbf : Bdd (fun y => ∫ ω, far F (r / 2) (y, ω) ∂P) 1 := by
      refine ⟨hbF.meas.stronglyMeasurable.integral_prod_right'.measurable, fun y => ?_⟩
      have hmy : Measurable fun ω => far F (r / 2) (y, ω) := by
        have h := hbF.meas.comp (measurable_prodMk_left (x := y))
        exact h
      exact abs_le.mpr (average_between P hmy fun ω => abs_le.mp (hbF.le _))
    rw [e1, upto_length (q := q) fun t ht => hlen t (by omega)]
    have h3 := (abs_le.mp (hM' (M * q) (by nlinarith) _ hbf)).2
    have h4 := hT₁ Ω Key _ P inferInstance noise uniform hI q hq (later M b) T (by omega) (fun t ht => hlen (M + t) (by omega)) hnT
    have h5 : ∫ p, far F (r / 2) p ∂((walkerLaw μ ψ).prod P) ≤ ∫ p, far F (δ / 2 * T) p ∂((walkerLaw μ ψ).prod P) :=
      integral_mono (hbF.int _) ((far_bdd mF _).int _) fun p => far_anti F (by
        rw [hrr]
        push_cast
        nlinarith) p
    rw [← integral_prod _ (hbF.int _)] at h3
    linarith
  have h3 := integral_mono ((far_bdd (mA.add mD) r).int P) (((far_bdd mA (r / 2)).int P).add ((far_bdd mD (r / 2)).int P)) fun ω => far_add A D r ω
  refine h3.trans ?_
  rw [integral_add' ((far_bdd mA (r / 2)).int P) ((far_bdd mD (r / 2)).int P)]
  linarith

end Jaqmc.Average
