import Verif.Model.Handover
import Verif.Props.Sampler
import Mathlib.Analysis.SpecificLimits.Basic
/-! # C127: inherited sampler states -/

namespace Jaqmc.Handover.Props
open Jaqmc.Handover
open Jaqmc.Sampler (Cfg State adapt meanL Rng Batch LP run)
open Jaqmc.Sampler.Spec (adjusted)
open Jaqmc.Sampler.Props (adaptAll run_state run_take)

variable {F V Key : Type} {n : Nat}

/-! ### Handover -/

theorem lookup_isSome {Cls : Type} (p : Plan Cls) (k : List String) :
    (p.lookup k).isSome ↔ ∃ c, (k, c) ∈ p := by
  induction p with
  | nil => simp
  | cons e p ih =>
    obtain ⟨k', c'⟩ := e
    by_cases h : k = k'
    · subst h; simp [List.lookup_cons]
    · have : (k == k') = false := by simpa using h
      rw [List.lookup_cons, this]
      simp [ih, h]

theorem lookup_none_iff {Cls : Type} (p : Plan Cls) (k : List String) :
    p.lookup k = none ↔ ¬ ∃ c, (k, c) ∈ p := by
  rw [← lookup_isSome, Option.not_isSome_iff_eq_none]

/-- C127: sampler states are handed over exactly if both plans move the same groups of fields with
samplers of the same classes, in whatever order they were registered. -/
theorem c127_compatible {Cls : Type} [DecidableEq Cls] (a b : Plan Cls) :
    compatible a b = true ↔ ∀ fields, a.lookup fields = b.lookup fields := by
  unfold compatible
  by_cases h : (¬ (a.all fun e => (b.lookup e.1).isSome) ∨ ¬ (b.all fun e => (a.lookup e.1).isSome))
  · rw [if_pos h]
    constructor
    · intro hf; simp at hf
    · intro hall
      exfalso
      rcases h with h | h
      · apply h
        rw [List.all_eq_true]
        intro e he
        rw [← hall]; exact (lookup_isSome a e.1).2 ⟨e.2, he⟩
      · apply h
        rw [List.all_eq_true]
        intro e he
        rw [hall]; exact (lookup_isSome b e.1).2 ⟨e.2, he⟩
  · rw [if_neg h]
    push Not at h
    obtain ⟨_, hb⟩ := h
    rw [List.all_eq_true] at hb ⊢
    constructor
    · intro hh fields
      cases ha : a.lookup fields with
      | some c =>
        obtain ⟨c', hc'⟩ := (lookup_isSome a fields).1 (by rw [ha]; rfl)
        have := hh _ hc'
        rw [← ha]; simpa using this
      | none =>
        symm
        rw [lookup_none_iff]
        rintro ⟨c, hc⟩
        have := hb _ hc
        rw [ha] at this; simp at this
    · intro hh e _
      simpa using hh e.1

/-- C127: training starts from the parameters and walkers with which pretraining ended, and continues
its sampler states if they are compatible, else from fresh ones; an evaluation starts from the
parameters, walkers and sampler states of the checkpoint, whatever its own sample plan is. -/
theorem c127_handover {P D S Cls : Type} [DecidableEq Cls] (initParams : D → P) (initSampler : D → S)
    (initial : D) (s : Carried P D S) (pre plan : Plan Cls) :
    let t := trainingState initParams initSampler initial (some (s, pre)) plan
    t.params = s.params ∧ t.data = s.data ∧
    ((∀ fields, pre.lookup fields = plan.lookup fields) → t.sampler = s.sampler) ∧
    ((∃ fields, pre.lookup fields ≠ plan.lookup fields) → t.sampler = initSampler s.data) ∧
    evaluationState initParams initSampler initial s = s := by
  intro t
  refine ⟨rfl, rfl, fun h => ?_, fun h => ?_, rfl⟩
  · have hc := (c127_compatible pre plan).2 h
    simp [t, trainingState, createState, hc]
  · have hc : compatible pre plan = false := by
      by_contra hc
      obtain ⟨f, hf⟩ := h
      exact hf ((c127_compatible pre plan).1 (by simpa using hc) f)
    simp [t, trainingState, createState, hc]

example : compatible [(["a"], 1), (["b", "c"], 2)] [(["b", "c"], 2), (["a"], 1)] = true ∧
    compatible [(["a"], 1), (["b"], 2)] [(["a"], 1), (["b"], 3)] = false ∧
    compatible [(["a"], 1)] [(["a"], 1), (["b"], 3)] = false := by decide

/-! ### Adaptation from an arbitrary state -/

theorem adaptAll_snoc (cfg : Cfg) (s : State) (ps : List ℝ) (p : ℝ) :
    adaptAll cfg s (ps ++ [p]) = adapt cfg (adaptAll cfg s ps) p := by
  unfold adaptAll; rw [List.foldl_append]; rfl

/-- The history after the ratios `ps`: the latest ratio in each slot, and the slots beyond the period
as they were inherited. -/
theorem adaptAll_history (cfg : Cfg) (hf : 0 < cfg.adaptFrequency) (s : State) (ps : List ℝ) :
    (adaptAll cfg s ps).counter = s.counter + ps.length ∧
    (adaptAll cfg s ps).pmoves.length = s.pmoves.length ∧
    (∀ j, cfg.adaptFrequency ≤ j → (adaptAll cfg s ps).pmoves[j]? = s.pmoves[j]?) ∧
    (∀ i, i < ps.length → ps.length ≤ i + cfg.adaptFrequency →
      (s.counter + i + 1) % cfg.adaptFrequency < s.pmoves.length →
      (adaptAll cfg s ps).pmoves[(s.counter + i + 1) % cfg.adaptFrequency]? = ps[i]?) := by
  induction ps using List.reverseRecOn with
  | nil => exact ⟨rfl, rfl, fun _ _ => rfl, fun i hi => by simp at hi⟩
  | append_singleton ps p ih =>
    obtain ⟨h1, h2, h3, h4⟩ := ih
    rw [adaptAll_snoc]
    have hlt : (s.counter + ps.length + 1) % cfg.adaptFrequency < cfg.adaptFrequency :=
      Nat.mod_lt _ hf
    refine ⟨by simp [adapt, h1]; omega, by simp [adapt, h2], fun j hj => ?_, fun i hi hw hL => ?_⟩
    · simp only [adapt, h1]
      rw [List.getElem?_set_ne (by omega), h3 j hj]
    · simp only [adapt, h1]
      rw [List.length_append, List.length_singleton] at hi hw
      by_cases hl : i = ps.length
      · subst hl
        rw [List.getElem?_set_self (by omega)]
        simp
      · have hne : (s.counter + ps.length + 1) % cfg.adaptFrequency
            ≠ (s.counter + i + 1) % cfg.adaptFrequency := by
          intro e
          have hm : cfg.adaptFrequency ∣ (s.counter + ps.length + 1) - (s.counter + i + 1) :=
            (Nat.modEq_iff_dvd' (by omega)).1 e.symm
          have hle := Nat.le_of_dvd (by omega) hm
          omega
        rw [List.getElem?_set_ne hne, h4 i (by omega) (by omega) hL,
          List.getElem?_append_left (by omega)]

/-- What the history holds when the width is adapted after a complete period: the latest ratio, the
earlier ones of the period as far as there is room, and what was inherited beyond the period. -/
theorem history_at_adaptation (cfg : Cfg) (hf : 0 < cfg.adaptFrequency) (s : State) (ps : List ℝ)
    (hfull : cfg.adaptFrequency ≤ ps.length) (hL : s.pmoves ≠ [])
    (hd : cfg.adaptFrequency ∣ s.counter + ps.length) :
    ∃ last, ps.getLast? = some last ∧
    (adaptAll cfg s ps).pmoves =
      (last :: (ps.drop (ps.length - cfg.adaptFrequency)).dropLast).take s.pmoves.length
        ++ s.pmoves.drop cfg.adaptFrequency := by
  obtain ⟨h1, h2, h3, h4⟩ := adaptAll_history cfg hf s ps
  have hne : ps ≠ [] := by intro e; rw [e] at hfull; simp at hfull; omega
  refine ⟨ps.getLast hne, List.getLast?_eq_getLast_of_ne_nil hne, ?_⟩
  have hLpos : 0 < s.pmoves.length := List.length_pos_of_ne_nil hL
  generalize hfe : cfg.adaptFrequency = f at *
  obtain ⟨q, hq⟩ := hd
  apply List.ext_getElem?
  intro j
  by_cases hj : j < s.pmoves.length
  · by_cases hjf : j < f
    · rw [List.getElem?_append_left (by simp; omega), List.getElem?_take_of_lt hj]
      cases j with
      | zero =>
        have := h4 (ps.length - 1) (by omega) (by omega)
        have e : (s.counter + (ps.length - 1) + 1) % f = 0 := by
          have : s.counter + (ps.length - 1) + 1 = f * q := by omega
          rw [this]; exact Nat.mul_mod_right f q
        rw [e] at this
        rw [this hLpos]
        simp [List.getLast_eq_getElem]
      | succ j =>
        have := h4 (ps.length - f + j) (by omega) (by omega)
        have e : (s.counter + (ps.length - f + j) + 1) % f = j + 1 := by
          have h5 : s.counter + (ps.length - f + j) + 1 + f = (j + 1) + f * q := by omega
          have h6 : (s.counter + (ps.length - f + j) + 1 + f) % f = (j + 1) % f := by
            rw [h5, Nat.add_mul_mod_self_left]
          rw [Nat.add_mod_right] at h6
          rw [h6]; exact Nat.mod_eq_of_lt hjf
        rw [e] at this
        rw [this hj, List.getElem?_cons_succ, List.getElem?_dropLast, if_pos (by simp; omega),
          List.getElem?_drop]
    · rw [h3 j (by omega), List.getElem?_append_right (by simp; omega), List.getElem?_drop]
      congr 1
      simp
      omega
  · rw [List.getElem?_eq_none (by omega), List.getElem?_eq_none]
    simp
    omega

theorem adapt_width (cfg : Cfg) (s : State) (p : ℝ) (hd : cfg.adaptFrequency ∣ s.counter + 1) :
    (adapt cfg s p).stddev = adjusted cfg.pmoveLow cfg.pmoveHigh (meanL (adapt cfg s p).pmoves) s.stddev := by
  have h0 : (s.counter + 1) % cfg.adaptFrequency = 0 := Nat.mod_eq_zero_of_dvd hd
  simp only [adapt, h0, if_true, adjusted, gt_iff_lt]
  norm_num

theorem adapt_width_same (cfg : Cfg) (s : State) (p : ℝ) (hd : ¬ cfg.adaptFrequency ∣ s.counter + 1) :
    (adapt cfg s p).stddev = s.stddev := by
  have h0 : ¬ (s.counter + 1) % cfg.adaptFrequency = 0 := fun h => hd (Nat.dvd_of_mod_eq_zero h)
  simp [adapt, h0]

section Runs
variable {d : Nat} (cfg : Cfg) (hs : cfg.steps ≠ 0) (hf : 0 < cfg.adaptFrequency) (rng : Rng Key n)
  (proposal : ℝ → Key → Batch F n V → Batch F n V) (x : Fin d → Batch F n V) (s : State)
  (ins : List ((Fin d → Batch F n V → Fin n → LP) × (Fin d → Key)))

include hs in
theorem width_eq (k : Nat) :
    (run cfg rng proposal x s (ins.take k)).2.2.stddev
      = (adaptAll cfg s ((run cfg rng proposal x s ins).2.1.take k)).stddev := by
  rw [(run_state cfg hs rng proposal x s (ins.take k)).1, run_take]

include hs hf in
/-- The width after any number of steps, from any inherited state: it changes only at multiples of the
period, and after a complete period it is adapted to the mean over the slots of the inherited history,
of which the period overwrites the first ones. -/
theorem width_steps :
    let W : Nat → ℝ := fun k => (run cfg rng proposal x s (ins.take k)).2.2.stddev
    let ps := (run cfg rng proposal x s ins).2.1
    W 0 = s.stddev ∧
    (∀ k < ins.length, ¬ cfg.adaptFrequency ∣ s.counter + k + 1 → W (k + 1) = W k) ∧
    (∀ k < ins.length, cfg.adaptFrequency ∣ s.counter + k + 1 →
      W (k + 1) = adjusted cfg.pmoveLow cfg.pmoveHigh
        (meanL (adaptAll cfg s (ps.take (k + 1))).pmoves) (W k)) := by
  intro W ps
  have hlen : ps.length = ins.length := (run_state cfg hs rng proposal x s ins).2
  have hW : ∀ k, W k = (adaptAll cfg s (ps.take k)).stddev :=
    fun k => width_eq cfg hs rng proposal x s ins k
  have hsucc : ∀ k, (hk : k < ps.length) →
      adaptAll cfg s (ps.take (k + 1)) = adapt cfg (adaptAll cfg s (ps.take k)) ps[k] := by
    intro k hk
    rw [List.take_succ_eq_append_getElem hk, adaptAll_snoc]
  have hc : ∀ k ≤ ps.length, (adaptAll cfg s (ps.take k)).counter = s.counter + k := by
    intro k hk
    rw [(adaptAll_history cfg hf s _).1, List.length_take, Nat.min_eq_left hk]
  refine ⟨by rw [hW 0]; rfl, fun k hk hd => ?_, fun k hk hd => ?_⟩
  · have hk' : k < ps.length := by omega
    rw [hW, hW, hsucc k hk']
    exact adapt_width_same cfg _ _ (by rw [hc k (by omega)]; exact hd)
  · have hk' : k < ps.length := by omega
    rw [hW, hW, hsucc k hk']
    exact adapt_width cfg _ _ (by rw [hc k (by omega)]; exact hd)

include hs hf in
/-- C127: a sampler that takes over a state whose history has the length of its own adaptation period
keeps the inherited width, changes it only at multiples of the period, and from the end of the first
complete period on adapts it to the mean of the acceptance ratios of the period that just ended,
whatever history it inherited. -/
theorem c127_same_period (hlen : s.pmoves.length = cfg.adaptFrequency) :
    let W : Nat → ℝ := fun k => (run cfg rng proposal x s (ins.take k)).2.2.stddev
    let ps := (run cfg rng proposal x s ins).2.1
    W 0 = s.stddev ∧
    (∀ k < ins.length, ¬ cfg.adaptFrequency ∣ s.counter + k + 1 → W (k + 1) = W k) ∧
    (∀ k < ins.length, cfg.adaptFrequency ∣ s.counter + k + 1 → cfg.adaptFrequency ≤ k + 1 →
      W (k + 1) = adjusted cfg.pmoveLow cfg.pmoveHigh
        (((ps.take (k + 1)).drop (k + 1 - cfg.adaptFrequency)).sum / cfg.adaptFrequency) (W k)) := by
  intro W ps
  obtain ⟨h0, h1, h2⟩ := width_steps cfg hs hf rng proposal x s ins
  refine ⟨h0, h1, fun k hk hd hfk => ?_⟩
  have hpl : ps.length = ins.length := (run_state cfg hs rng proposal x s ins).2
  have htl : (ps.take (k + 1)).length = k + 1 := by rw [List.length_take]; omega
  have hne : s.pmoves ≠ [] := by intro e; rw [e] at hlen; simp at hlen; omega
  obtain ⟨last, hl, hh⟩ := history_at_adaptation cfg hf s (ps.take (k + 1)) (by omega) hne
    (by rw [htl]; exact hd)
  refine (h2 k hk hd).trans ?_
  congr 1
  show meanL (adaptAll cfg s (ps.take (k + 1))).pmoves = _
  rw [hh, htl, hlen]
  have hdrop : s.pmoves.drop cfg.adaptFrequency = [] := by
    apply List.drop_eq_nil_of_le; omega
  set w := (ps.take (k + 1)).drop (k + 1 - cfg.adaptFrequency) with hw
  have hwl : w.length = cfg.adaptFrequency := by rw [hw, List.length_drop, htl]; omega
  have hwne : w ≠ [] := by intro e; rw [e] at hwl; simp at hwl; omega
  have hlast : w.getLast hwne = last := by
    have : w.getLast? = some last := by
      rw [hw, List.getLast?_drop, if_neg (by rw [htl]; omega)]; exact hl
    rw [List.getLast?_eq_getLast_of_ne_nil hwne] at this
    exact Option.some.inj this
  rw [hdrop, List.append_nil, List.take_of_length_le (by simp; omega)]
  unfold meanL
  have hsum : (last :: w.dropLast).sum = w.sum := by
    conv_rhs => rw [← List.dropLast_append_getLast hwne, hlast]
    simp [add_comm]
  rw [hsum]
  congr 1
  simp only [List.length_cons, List.length_dropLast, hwl]
  have : cfg.adaptFrequency - 1 + 1 = cfg.adaptFrequency := by omega
  rw [this]

theorem sum_le {l : List ℝ} (h : ∀ p ∈ l, p ≤ 1) : l.sum ≤ l.length := by
  induction l with
  | nil => simp
  | cons a l ih =>
    have h1 := h a (by simp)
    have h2 := ih fun p hp => h p (by simp [hp])
    simp only [List.sum_cons, List.length_cons, Nat.cast_add, Nat.cast_one]
    linarith

theorem sum_nonneg {l : List ℝ} (h : ∀ p ∈ l, 0 ≤ p) : 0 ≤ l.sum := by
  induction l with
  | nil => simp
  | cons a l ih =>
    have h1 := h a (by simp)
    have h2 := ih fun p hp => h p (by simp [hp])
    simp only [List.sum_cons]; linarith

theorem adaptAll_mem (P : ℝ → Prop) (cfg : Cfg) (s : State) (ps : List ℝ)
    (h : ∀ p ∈ s.pmoves, P p) (hp : ∀ p ∈ ps, P p) : ∀ p ∈ (adaptAll cfg s ps).pmoves, P p := by
  induction ps using List.reverseRecOn with
  | nil => exact h
  | append_singleton ps p ih =>
    intro r hr
    rw [adaptAll_snoc] at hr
    simp only [adapt] at hr
    rcases List.mem_or_eq_of_mem_set hr with hr | hr
    · exact ih (fun q hq => hp q (by simp [hq])) r hr
    · rw [hr]; exact hp p (by simp)

theorem drop_history (cfg : Cfg) (hf : 0 < cfg.adaptFrequency) (s : State) (ps : List ℝ) :
    (adaptAll cfg s ps).pmoves.drop cfg.adaptFrequency = s.pmoves.drop cfg.adaptFrequency := by
  obtain ⟨_, h2, h3, _⟩ := adaptAll_history cfg hf s ps
  apply List.ext_getElem?
  intro j
  rw [List.getElem?_drop, List.getElem?_drop, h3 _ (by omega)]

/-- A width that is multiplied by `c` whenever the period ends. -/
theorem width_power {W : Nat → ℝ} {f c0 N : Nat} {c w0 : ℝ} (hf : 0 < f) (h0 : W 0 = w0)
    (h1 : ∀ k < N, ¬ f ∣ c0 + k + 1 → W (k + 1) = W k)
    (h2 : ∀ k < N, f ∣ c0 + k + 1 → W (k + 1) = W k * c) :
    ∀ k ≤ N, W k = w0 * c ^ ((c0 + k) / f - c0 / f) := by
  intro k
  induction k with
  | zero => intro _; simp [h0]
  | succ k ih =>
    intro hk
    have ih := ih (by omega)
    have hmono : c0 / f ≤ (c0 + k) / f := Nat.div_le_div_right (by omega)
    by_cases hd : f ∣ c0 + k + 1
    · rw [h2 k (by omega) hd, ih]
      have : (c0 + (k + 1)) / f = (c0 + k) / f + 1 := by
        rw [← Nat.add_assoc, Nat.succ_div, if_pos hd]
      rw [this, Nat.sub_add_comm hmono, pow_succ]; ring
    · rw [h1 k (by omega) hd, ih]
      have : (c0 + (k + 1)) / f = (c0 + k) / f := by
        rw [← Nat.add_assoc, Nat.succ_div, if_neg hd]; rfl
      rw [this]

include hs hf in
/-- C127 fails when the adaptation period is shortened: the history beyond it is never overwritten
again.  If what it holds is small, the width is divided by 1.1 at the end of every period however often
moves are accepted, so that the walkers end up not moving at all. -/
theorem c127_collapse (hle : cfg.adaptFrequency ≤ s.pmoves.length) (hone : ∀ p ∈ s.pmoves, p ≤ 1)
    (hps : ∀ p ∈ (run cfg rng proposal x s ins).2.1, p ≤ 1)
    (hlow : cfg.adaptFrequency + (s.pmoves.drop cfg.adaptFrequency).sum
      < cfg.pmoveLow * s.pmoves.length) (hr : cfg.pmoveLow ≤ cfg.pmoveHigh) :
    ∀ k ≤ ins.length, (run cfg rng proposal x s (ins.take k)).2.2.stddev
      = s.stddev * (10 / 11 : ℝ) ^ ((s.counter + k) / cfg.adaptFrequency
          - s.counter / cfg.adaptFrequency) := by
  obtain ⟨h0, h1, h2⟩ := width_steps cfg hs hf rng proposal x s ins
  refine width_power hf h0 h1 fun k hk hd => ?_
  refine (h2 k hk hd).trans ?_
  set ps := (run cfg rng proposal x s ins).2.1
  set h := (adaptAll cfg s (ps.take (k + 1))).pmoves with hh
  have hlen : h.length = s.pmoves.length := (adaptAll_history cfg hf s _).2.1
  have hpos : (0 : ℝ) < s.pmoves.length := by
    have : 0 < s.pmoves.length := by omega
    exact_mod_cast this
  have hmem : ∀ p ∈ h, p ≤ 1 :=
    adaptAll_mem (· ≤ 1) cfg s _ hone fun p hp => hps p (List.mem_of_mem_take hp)
  have hsum : h.sum ≤ cfg.adaptFrequency + (s.pmoves.drop cfg.adaptFrequency).sum := by
    conv_lhs => rw [← List.take_append_drop cfg.adaptFrequency h]
    rw [List.sum_append, hh, drop_history cfg hf, ← hh]
    have := sum_le (l := h.take cfg.adaptFrequency) fun p hp => hmem p (List.mem_of_mem_take hp)
    rw [List.length_take, hlen, Nat.min_eq_left hle] at this
    linarith
  have hmean : meanL h < cfg.pmoveLow := by
    unfold meanL
    rw [hlen, div_lt_iff₀ hpos]; linarith
  unfold adjusted
  rw [if_neg (by linarith), if_pos hmean]
  ring

include hs hf in
/-- Likewise, if what is left of the history is large, the width grows by 1.1 at the end of every period
however rarely moves are accepted. -/
theorem c127_blow_up (hle : cfg.adaptFrequency ≤ s.pmoves.length) (hzero : ∀ p ∈ s.pmoves, 0 ≤ p)
    (hps : ∀ p ∈ (run cfg rng proposal x s ins).2.1, 0 ≤ p)
    (hhigh : cfg.pmoveHigh * s.pmoves.length < (s.pmoves.drop cfg.adaptFrequency).sum) :
    ∀ k ≤ ins.length, (run cfg rng proposal x s (ins.take k)).2.2.stddev
      = s.stddev * (11 / 10 : ℝ) ^ ((s.counter + k) / cfg.adaptFrequency
          - s.counter / cfg.adaptFrequency) := by
  obtain ⟨h0, h1, h2⟩ := width_steps cfg hs hf rng proposal x s ins
  refine width_power hf h0 h1 fun k hk hd => ?_
  refine (h2 k hk hd).trans ?_
  set ps := (run cfg rng proposal x s ins).2.1
  set h := (adaptAll cfg s (ps.take (k + 1))).pmoves with hh
  have hlen : h.length = s.pmoves.length := (adaptAll_history cfg hf s _).2.1
  have hpos : (0 : ℝ) < s.pmoves.length := by
    have : 0 < s.pmoves.length := by omega
    exact_mod_cast this
  have hmem : ∀ p ∈ h, 0 ≤ p :=
    adaptAll_mem (0 ≤ ·) cfg s _ hzero fun p hp => hps p (List.mem_of_mem_take hp)
  have hsum : (s.pmoves.drop cfg.adaptFrequency).sum ≤ h.sum := by
    conv_rhs => rw [← List.take_append_drop cfg.adaptFrequency h]
    rw [List.sum_append, hh, drop_history cfg hf, ← hh]
    have := sum_nonneg (l := h.take cfg.adaptFrequency) fun p hp => hmem p (List.mem_of_mem_take hp)
    linarith
  have hmean : cfg.pmoveHigh < meanL h := by
    unfold meanL
    rw [hlen, lt_div_iff₀ hpos]; linarith
  unfold adjusted
  rw [if_pos hmean]

end Runs

/-- The hypotheses of `c127_collapse` and `c127_blow_up` are met: a state of a training with period 100
that ran for 30 steps, or with a long history of acceptance 0.6, evaluated with period 5. -/
example : (5 : ℝ) + ((List.replicate 30 (0.5 : ℝ) ++ List.replicate 70 0).drop 5).sum
      < 0.5 * (List.replicate 30 (0.5 : ℝ) ++ List.replicate 70 0).length ∧
    0.55 * ((List.replicate 100 (0.6 : ℝ)).length : ℝ) < ((List.replicate 100 (0.6 : ℝ)).drop 5).sum := by
  constructor
  · have : (List.replicate 30 (0.5 : ℝ) ++ List.replicate 70 0).drop 5
        = List.replicate 25 (0.5 : ℝ) ++ List.replicate 70 0 := by
      rw [List.drop_append, List.drop_replicate]; simp
    rw [this]; simp; norm_num
  · rw [List.drop_replicate]; simp; norm_num

/-- A width that collapses in this way tends to zero. -/
theorem c127_collapse_limit (w0 : ℝ) (c0 f : Nat) (hf : 0 < f) :
    Filter.Tendsto (fun k : Nat => w0 * (10 / 11 : ℝ) ^ ((c0 + k) / f - c0 / f)) Filter.atTop (nhds 0) := by
  have h1 : Filter.Tendsto (fun m : Nat => (10 / 11 : ℝ) ^ m) Filter.atTop (nhds 0) :=
    tendsto_pow_atTop_nhds_zero_of_lt_one (by norm_num) (by norm_num)
  have h2 : Filter.Tendsto (fun k : Nat => (c0 + k) / f - c0 / f) Filter.atTop Filter.atTop := by
    rw [Filter.tendsto_atTop]
    intro b
    filter_upwards [Filter.eventually_ge_atTop ((b + c0 / f) * f)] with k hk
    have : b + c0 / f ≤ (c0 + k) / f := by
      rw [Nat.le_div_iff_mul_le hf]; omega
    omega
  have := (h1.comp h2).const_mul w0
  simpa using this

end Jaqmc.Handover.Props
