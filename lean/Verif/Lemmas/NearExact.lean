import Verif.Model.NearExact
import Verif.Spec.NearExact
import Verif.Props.TrainLoss
import Verif.Props.ImagTime
/-! Lemmas for C146. -/
namespace Jaqmc.Average.NearExact
open Jaqmc.Sampler Jaqmc.Average Jaqmc.Average.Spec Jaqmc.LossGrad Jaqmc.LossGrad.Spec Jaqmc.Average.Props

variable {V N Ω Key Θ : Type} {n d p : ℕ}

/-! ### Clipping keeps values within the bounds of the unclipped ones -/

theorem quantile_near {q m lo hi : ℝ} {xs : List ℝ} (h : IsQuantile q xs m) (hb : ∀ x ∈ xs, lo ≤ x ∧ x ≤ hi) : lo ≤ m ∧ m ≤ hi := by
  obtain ⟨s, hp, -, i, t, a, b, h0, h1, -, ha, hb', rfl⟩ := h
  have ma := hb a (hp.mem_iff.1 (List.mem_of_getElem? ha))
  by_cases ht : t = 0
  · subst ht; simpa using ma
  · have mb := hb b (hp.mem_iff.1 (List.mem_of_getElem? (hb' ht)))
    constructor <;> nlinarith

theorem window_near {x L U lo hi : ℝ} (hL : L ≤ hi) (hU : lo ≤ U) (h1 : lo ≤ x) (h2 : x ≤ hi) : lo ≤ min (max x L) U ∧ min (max x L) U ≤ hi :=
  ⟨le_min (h1.trans (le_max_left _ _)) hU, (min_le_left _ _).trans (max_le h2 hL)⟩

theorem clipReal_near (method : String) (hm : method = "iqr" ∨ method = "mad" ∨ method = "none") {scale : ℝ} (hs : 0 ≤ scale) {lo hi : ℝ} (xs : List (List ℝ)) (hne : xs.flatten ≠ [])
    (hb : ∀ x ∈ xs.flatten, lo ≤ x ∧ x ≤ hi) :
    ∃ f : ℝ → ℝ, clipReal method scale (xs.map (List.map some)) = .ok (xs.map (List.map fun x => some (f x))) ∧ ∀ x, lo ≤ x → x ≤ hi → lo ≤ f x ∧ f x ≤ hi := by
  have eflat : (xs.map (List.map some)).flatten = xs.flatten.map some := flatten_map_map xs some
  have efil : (xs.map (List.map some)).flatten.filterMap id = xs.flatten := by rw [eflat, Jaqmc.Stats.Props.filterMap_id_map_some]
  have hv : (xs.map (List.map some)).flatten.filterMap id ≠ [] := by rw [efil]; exact hne
  have emap : ∀ (g : Option ℝ → Option ℝ), (xs.map (List.map some)).map (List.map g) = xs.map (List.map (fun x => g (some x))) := by
    intro g; rw [List.map_map]; apply List.map_congr_left; intro l _; simp [List.map_map]
  unfold clipReal
  rcases hm with rfl | rfl | rfl
  · simp only [if_true]
    obtain ⟨q1, q3, h1, h3, hle⟩ := quantile_mono (q1 := 1 / 4) (q2 := 3 / 4) (by norm_num) (by norm_num) (by norm_num) _ hv
    have n1 := quantile_near (by simpa only [efil] using isQuantile_of h1 (by norm_num) (by norm_num)) hb
    have n3 := quantile_near (by simpa only [efil] using isQuantile_of h3 (by norm_num) (by norm_num)) hb
    have hw : 0 ≤ scale * (q3 - q1) := mul_nonneg hs (by linarith)
    refine ⟨fun x => min (max x (q1 - scale * (q3 - q1))) (q3 + scale * (q3 - q1)), ?_, fun x => window_near (by linarith) (by linarith)⟩
    unfold iqrClip
    rw [h1, h3, emap]
    rfl
  · simp only [show ("mad" = "iqr") = False by simp, if_false, if_true]
    obtain ⟨md, -, h1, -, -⟩ := quantile_mono (q1 := 1 / 2) (q2 := 1 / 2) (by norm_num) (by norm_num) (by norm_num) _ hv
    have n1 := quantile_near (by simpa only [efil] using isQuantile_of h1 (by norm_num) (by norm_num)) hb
    have hdev : (xs.map (List.map some)).flatten.map (fun x => nabs (nminus x (some md))) = (xs.flatten.map fun x => |x - md|).map some := by
      rw [eflat, List.map_map, List.map_map]; rfl
    obtain ⟨ad, h2, h3⟩ := quantile_nonneg (q := 1 / 2) (by norm_num) (by norm_num) ((xs.flatten.map fun x => |x - md|).map some)
      (by rw [Jaqmc.Stats.Props.filterMap_id_map_some]; simpa using hne)
      (by
        rw [Jaqmc.Stats.Props.filterMap_id_map_some]
        intro x hx
        obtain ⟨y, _, rfl⟩ := List.mem_map.1 hx
        exact abs_nonneg _)
    have hw : 0 ≤ scale * ad := mul_nonneg hs h3
    refine ⟨fun x => min (max x (md - scale * ad)) (md + scale * ad), ?_, fun x => window_near (by linarith) (by linarith)⟩
    unfold madClip
    rw [h1]
    dsimp only
    rw [hdev, h2, emap]
    rfl
  · refine ⟨id, by simp, fun x h1 h2 => ⟨h1, h2⟩⟩

theorem clipComplex_near (method : String) (hm : method = "iqr" ∨ method = "mad" ∨ method = "none") {scale : ℝ} (hs : 0 ≤ scale) {E0 a b : ℝ} (zs : List (List ℂ)) (hne : zs.flatten ≠ [])
    (hb : ∀ z ∈ zs.flatten, |z.re - E0| ≤ a ∧ |z.im| ≤ b) :
    ∃ f : ℂ → ℂ, clipComplex method scale (zs.map (List.map some)) = .ok (zs.map (List.map fun z => some (f z))) ∧
      ∀ z, |z.re - E0| ≤ a → |z.im| ≤ b → |(f z).re - E0| ≤ a ∧ |(f z).im| ≤ b := by
  have mm : ∀ {A B C : Type} (a : A → B) (b : B → C) (l : List (List A)), (l.map (List.map a)).map (List.map b) = l.map (List.map (fun x => b (a x))) := by
    intro A B C a b l; rw [List.map_map]; apply List.map_congr_left; intro x _; simp [List.map_map]
  obtain ⟨f, hf, hf'⟩ := clipReal_near method hm hs (lo := E0 - a) (hi := E0 + a) (zs.map (List.map Complex.re)) (by rw [flatten_map_map]; simpa using hne) (by
    rw [flatten_map_map]
    intro x hx
    obtain ⟨z, hz, rfl⟩ := List.mem_map.1 hx
    have := abs_le.1 (hb z hz).1
    constructor <;> linarith)
  obtain ⟨g, hg, hg'⟩ := clipReal_near method hm hs (lo := -b) (hi := b) (zs.map (List.map Complex.im)) (by rw [flatten_map_map]; simpa using hne) (by
    rw [flatten_map_map]
    intro x hx
    obtain ⟨z, hz, rfl⟩ := List.mem_map.1 hx
    exact abs_le.1 (hb z hz).2)
  rw [mm, mm] at hf hg
  refine ⟨fun z => ⟨f z.re, g z.im⟩, ?_, fun z h1 h2 => ?_⟩
  · unfold clipComplex
    dsimp only
    rw [mm, mm]
    simp only [Option.map_some]
    rw [hf, hg]
    dsimp only
    congr 1
    rw [zipWith_map_self]
    apply List.map_congr_left; intro l _
    rw [zipWith_map_self]
    rfl
  · have r := abs_le.1 h1
    have i := abs_le.1 h2
    have r' := hf' z.re (by linarith) (by linarith)
    have i' := hg' z.im i.1 i.2
    exact ⟨abs_le.2 ⟨by dsimp only; linarith, by dsimp only; linarith⟩, abs_le.2 ⟨i'.1, i'.2⟩⟩

/-! ### Loss and gradient of a batch -/

theorem loss_same {method : String} {scale : ℝ} {s : List (List Walker)} {l l' : Option ℂ} {γ γ' : Option ℝ} (h : lossAndGrad method scale [s] = .ok (l, γ))
    (h' : lossAndGrad "none" scale [s] = .ok (l', γ')) : l = l' := by
  have key : ∀ {m : String} {l : Option ℂ} {γ : Option ℝ}, lossAndGrad m scale [s] = .ok (l, γ) → l = Stats.nmean [Stats.meanOf (s.map (List.map Walker.loss))] := by
    intro m l γ h
    unfold lossAndGrad reduceSteps reduce reduceSteps at h
    split at h
    · rename_i rs hrs
      split at hrs
      · rename_i r rs' hr hrs'
        split at hr
        · cases hr
        · cases hr; cases hrs'; cases hrs
          simp only [finalize, List.map_cons, List.map_nil] at h
          cases h
          rfl
      · cases hrs
      · cases hrs
    · cases h
  rw [key h, key h']

open ImagTime in
theorem near_batch (method : String) (hm : method = "iqr" ∨ method = "mad" ∨ method = "none") {scale : ℝ} (hs : 0 ≤ scale) {E0 a b : ℝ} (hd : 0 < d) (hn : 0 < n) (g e : V → ℂ)
    (x : Fin d → Batch Unit n V) (hr : ∀ i j, |(e (x i () j)).re - E0| ≤ a) (hi : ∀ i j, |(e (x i () j)).im| ≤ b) :
    ∃ (L : ℂ) (γ : ℝ) (E' : Fin d × Fin n → ℂ), stepGradient method scale g e x = .ok (some L, some γ) ∧ L = (∑ w : Fin d × Fin n, e (x w.1 () w.2)) / ((d * n : ℕ) : ℂ) ∧
      (∀ w, |(E' w).re - E0| ≤ a ∧ |(E' w).im| ≤ b) ∧
      γ = 2 * ((∑ w, (starRingEnd ℂ) (g (x w.1 () w.2)) * E' w) / ((d * n : ℕ) : ℂ) - ((∑ w, E' w) * ∑ w : Fin d × Fin n, g (x w.1 () w.2)) / (((d * n : ℕ) : ℂ) ^ 2)).re := by
  let _ : MeasurableSpace V := ⊤
  have hflat : (List.ofFn fun i => List.ofFn fun j => e (x i () j)).flatten ≠ [] := by
    intro h0
    have := congrArg List.length h0
    rw [ImagTime.Props.length_flatten_ofFn] at this
    have h2 : 0 < d * n := Nat.mul_pos hd hn
    simp at this
    omega
  obtain ⟨f, hf, hb⟩ := clipComplex_near method hm hs (E0 := E0) (a := a) (b := b) (List.ofFn fun i => List.ofFn fun j => e (x i () j)) hflat (by
    intro z hz
    obtain ⟨l, hl, hz⟩ := List.mem_flatten.1 hz
    obtain ⟨i, rfl⟩ := List.mem_ofFn.1 hl
    obtain ⟨j, rfl⟩ := List.mem_ofFn.1 hz
    exact ⟨hr i j, hi i j⟩)
  have hf' : clipComplex method scale (List.ofFn fun i => List.ofFn fun j => some (e (x i () j))) = .ok (List.ofFn fun i => List.ofFn fun j => some (f (e (x i () j)))) := by
    simpa [List.map_ofFn, Function.comp_def] using hf
  obtain ⟨grad, hg⟩ := ImagTime.Props.gradient_exists hd hn method hm scale (fun i j (_ : Fin 1) => g (x i () j)) (fun i j => e (x i () j))
  have hg2 := ImagTime.Props.gradient_clipped method scale _ _ _ grad hf' hg
  have eq : ∀ (m : String) (F : V → ℂ), lossAndGrad m scale [(shardsOf (fun i j (_ : Fin 1) => g (x i () j)) (fun i j => F (x i () j)) 0).map (List.map fun w => ⟨some w.1, some w.2⟩)]
      = stepGradient m scale g F x := by
    intro m F
    rw [stepGradient_eq]
    rfl
  obtain ⟨L, h1⟩ := hg 0
  obtain ⟨L2, h2⟩ := hg2 0
  rw [eq method e] at h1
  rw [eq "none" fun v => f (e v)] at h2
  have hbv := LossGrad.Props.batch_value hd hn scale g e fun w : Fin d × Fin n => x w.1 () w.2
  have hbv2 := LossGrad.Props.batch_value hd hn scale g (fun v => f (e v)) fun w : Fin d × Fin n => x w.1 () w.2
  rw [stepGradient_eq] at h1 h2
  have hL := loss_same h1 hbv
  subst hL
  rw [hbv2] at h2
  refine ⟨_, grad 0, fun w => f (e (x w.1 () w.2)), by rw [stepGradient_eq]; exact h1, rfl, fun w => hb _ (hr _ _) (hi _ _), ?_⟩
  exact (Option.some.inj (congrArg Prod.snd (Except.ok.inj h2))).symm

theorem covariance_near (hN : 0 < d * n) {E0 c G : ℝ} (g E : Fin d × Fin n → ℂ) (hE : ∀ w, ‖E w - E0‖ ≤ c) (hg : ∀ w, ‖g w‖ ≤ G) :
    |2 * ((∑ w, (starRingEnd ℂ) (g w) * E w) / ((d * n : ℕ) : ℂ) - ((∑ w, E w) * ∑ w, g w) / (((d * n : ℕ) : ℂ) ^ 2)).re| ≤ 4 * G * c := by
  have hN' : (0 : ℝ) < ((d * n : ℕ) : ℝ) := by exact_mod_cast hN
  have hNc : ((d * n : ℕ) : ℂ) ≠ 0 := by exact_mod_cast hN.ne'
  have hw : ∃ w : Fin d × Fin n, True := by
    have h1 : 0 < d := Nat.pos_of_mul_pos_right hN
    have h2 : 0 < n := Nat.pos_of_mul_pos_left hN
    exact ⟨⟨⟨0, h1⟩, ⟨0, h2⟩⟩, trivial⟩
  obtain ⟨w0, -⟩ := hw
  have hc0 : 0 ≤ c := (norm_nonneg _).trans (hE w0)
  have hG0 : 0 ≤ G := (norm_nonneg _).trans (hg w0)
  have hcard : ((Finset.univ : Finset (Fin d × Fin n)).card : ℝ) = ((d * n : ℕ) : ℝ) := by simp
  have hcardc : ((Finset.univ : Finset (Fin d × Fin n)).card : ℂ) = ((d * n : ℕ) : ℂ) := by simp
  obtain ⟨N, hNdef⟩ : ∃ N : ℕ, N = d * n := ⟨_, rfl⟩
  rw [← hNdef] at hN' hNc hcard hcardc ⊢
  have s1 : ∑ w, (starRingEnd ℂ) (g w) * E w = ∑ w, (starRingEnd ℂ) (g w) * (E w - E0) + (starRingEnd ℂ) (∑ w, g w) * E0 := by
    rw [map_sum, Finset.sum_mul, ← Finset.sum_add_distrib]
    exact Finset.sum_congr rfl fun w _ => by ring
  have s2 : ∑ w, E w = ∑ w, (E w - E0) + (N : ℂ) * E0 := by
    rw [Finset.sum_sub_distrib, Finset.sum_const, nsmul_eq_mul, hcardc]; ring
  have b1 : ‖∑ w, (starRingEnd ℂ) (g w) * (E w - E0)‖ ≤ (N : ℝ) * (G * c) := by
    refine (norm_sum_le _ _).trans ?_
    refine (Finset.sum_le_sum (g := fun _ => G * c) fun w _ => ?_).trans (by rw [Finset.sum_const, nsmul_eq_mul, hcard])
    rw [norm_mul, RCLike.norm_conj]
    exact mul_le_mul (hg w) (hE w) (norm_nonneg _) hG0
  have b2 : ‖∑ w, (E w - E0)‖ ≤ (N : ℝ) * c := by
    refine (norm_sum_le _ _).trans ((Finset.sum_le_sum (g := fun _ => c) fun w _ => hE w).trans (by rw [Finset.sum_const, nsmul_eq_mul, hcard]))
  have b3 : ‖∑ w, g w‖ ≤ (N : ℝ) * G := by
    refine (norm_sum_le _ _).trans ((Finset.sum_le_sum (g := fun _ => G) fun w _ => hg w).trans (by rw [Finset.sum_const, nsmul_eq_mul, hcard]))
  have hre : ∀ z : ℂ, (((starRingEnd ℂ) z - z) * ((E0 / (N : ℝ) : ℝ) : ℂ)).re = 0 := by intro z; simp [Complex.mul_re]
  have split : (∑ w, (starRingEnd ℂ) (g w) * E w) / (N : ℂ) - ((∑ w, E w) * ∑ w, g w) / ((N : ℂ) ^ 2) =
      (∑ w, (starRingEnd ℂ) (g w) * (E w - E0)) / (N : ℂ) - ((∑ w, (E w - E0)) * ∑ w, g w) / ((N : ℂ) ^ 2) + ((starRingEnd ℂ) (∑ w, g w) - ∑ w, g w) * ((E0 / (N : ℝ) : ℝ) : ℂ) := by
    rw [s1, s2]
    push_cast
    field_simp
    ring
  rw [split, Complex.add_re, hre, add_zero, abs_mul, abs_two]
  refine (mul_le_mul_of_nonneg_left ((Complex.abs_re_le_norm _).trans (norm_sub_le _ _)) two_pos.le).trans ?_
  rw [norm_div, norm_div, norm_mul, norm_pow, Complex.norm_natCast]
  have c1 : ‖∑ w, (starRingEnd ℂ) (g w) * (E w - E0)‖ / (N : ℝ) ≤ G * c := by
    rw [div_le_iff₀ hN']; linarith
  have c2 : ‖∑ w, (E w - E0)‖ * ‖∑ w, g w‖ / (N : ℝ) ^ 2 ≤ G * c := by
    rw [div_le_iff₀ (by positivity)]
    calc _ ≤ ((N : ℝ) * c) * ((N : ℝ) * G) := mul_le_mul b2 b3 (norm_nonneg _) (by positivity)
      _ = _ := by ring
  linarith

theorem box_norm {z : ℂ} {E0 a b : ℝ} (h1 : |z.re - E0| ≤ a) (h2 : |z.im| ≤ b) : ‖z - E0‖ ≤ a + b := by
  refine (Complex.norm_le_abs_re_add_abs_im _).trans ?_
  simpa using add_le_add h1 h2

theorem mean_near (hN : 0 < d * n) {E0 a b : ℝ} (E : Fin d × Fin n → ℂ) (h : ∀ w, |(E w).re - E0| ≤ a ∧ |(E w).im| ≤ b) :
    |((∑ w, E w) / ((d * n : ℕ) : ℂ)).re - E0| ≤ a ∧ |((∑ w, E w) / ((d * n : ℕ) : ℂ)).im| ≤ b := by
  have hN' : (0 : ℝ) < ((d * n : ℕ) : ℝ) := by exact_mod_cast hN
  have hcard : ((Finset.univ : Finset (Fin d × Fin n)).card : ℝ) = ((d * n : ℕ) : ℝ) := by simp
  rw [Complex.div_natCast_re, Complex.div_natCast_im, Complex.re_sum, Complex.im_sum]
  have e : (∑ w, (E w).re) / ((d * n : ℕ) : ℝ) - E0 = (∑ w, ((E w).re - E0)) / ((d * n : ℕ) : ℝ) := by
    rw [Finset.sum_sub_distrib, Finset.sum_const, nsmul_eq_mul, hcard]; field_simp
  rw [e, abs_div, abs_div, abs_of_pos hN', div_le_iff₀ hN', div_le_iff₀ hN']
  constructor
  · refine (Finset.abs_sum_le_sum_abs _ _).trans ((Finset.sum_le_sum (g := fun _ => a) fun w _ => (h w).1).trans (by rw [Finset.sum_const, nsmul_eq_mul, hcard, mul_comm]))
  · refine (Finset.abs_sum_le_sum_abs _ _).trans ((Finset.sum_le_sum (g := fun _ => b) fun w _ => (h w).2).trans (by rw [Finset.sum_const, nsmul_eq_mul, hcard, mul_comm]))

/-! ### Walkers stay off the nodes -/

theorem cond_support {ψ : V → ℂ} {x y : V} {u : ℝ} (hx : ψ x ≠ 0) (h : Sampler.cond (logProbOf ψ x) (logProbOf ψ y) u) : ψ y ≠ 0 := by
  intro hy
  unfold Sampler.cond at h
  rw [logProbOf, logProbOf, if_pos hy, if_neg hx] at h
  simp only [LP.sub] at h
  unfold logU at h
  split at h <;> simp [LP.gt] at h

theorem loop_support (rng : Rng Key n) {ψ : V → ℂ} (proposal : Key → Batch Unit n V → Batch Unit n V) (x : Batch Unit n V) (key : Key) (hx : ∀ i, ψ (x () i) ≠ 0) (k : ℕ) :
    (∀ i, ψ ((mhLoop rng (batched fun _ y => logProbOf ψ (y ())) proposal k (start (batched fun _ y => logProbOf ψ (y ())) x key)).x () i) ≠ 0) ∧
      ∀ i, (mhLoop rng (batched fun _ y => logProbOf ψ (y ())) proposal k (start (batched fun _ y => logProbOf ψ (y ())) x key)).logProb i =
        logProbOf ψ ((mhLoop rng (batched fun _ y => logProbOf ψ (y ())) proposal k (start (batched fun _ y => logProbOf ψ (y ())) x key)).x () i) := by
  induction k with
  | zero => exact ⟨hx, fun i => rfl⟩
  | succ k ih =>
    obtain ⟨i1, i2⟩ := ih
    simp only [mhLoop]
    generalize mhLoop rng (batched fun _ y => logProbOf ψ (y ())) proposal k (start (batched fun _ y => logProbOf ψ (y ())) x key) = c at i1 i2 ⊢
    constructor
    · intro i
      simp only [mhUpdate]
      split
      · rename_i h
        rw [i2 i] at h
        exact cond_support (i1 i) h
      · exact i1 i
    · intro i
      simp only [mhUpdate]
      split
      · rfl
      · exact i2 i

theorem step_support (cfg : Cfg) (rng : Rng Key n) {ψ : V → ℂ} (proposal : ℝ → Key → Batch Unit n V → Batch Unit n V) (x : Fin d → Batch Unit n V) (s : State) (keys : Fin d → Key)
    (hx : ∀ a i, ψ (x a () i) ≠ 0) (a : Fin d) (i : Fin n) : ψ ((step cfg rng (target ψ) proposal x s keys).1 a () i) ≠ 0 := by
  unfold step
  split
  · exact hx a i
  · exact (loop_support rng (proposal s.stddev) (x a) (keys a) (hx a) cfg.steps).1 i

end Jaqmc.Average.NearExact
