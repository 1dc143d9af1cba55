import Verif.Props.DmcControl
/-! # C149: population control of a run that moves electron by electron -/

namespace Jaqmc.DmcRun.Props
open Jaqmc.DmcRun Jaqmc.DmcRun.Spec
open Jaqmc.DmcEnergy
open scoped Classical

variable {X Key : Type}

theorem zip_le (w : List ℝ) (hw : ∀ e ∈ w, 0 < e) (m : List (Moved X)) (f : Moved X → ℝ) (b : ℝ)
    (hf : ∀ x ∈ m, f x ≤ b) (hl : m.length = w.length) :
    (List.zipWith (fun w x => w * Real.exp (f x)) w m).sum ≤ w.sum * Real.exp b := by
  induction w generalizing m with
  | nil => simp
  | cons a w ih =>
    cases m with
    | nil => simp at hl
    | cons x m =>
      rw [List.zipWith_cons_cons, List.sum_cons, List.sum_cons, add_mul]
      exact add_le_add (mul_le_mul_of_nonneg_left (Real.exp_le_exp.2 (hf x (by simp))) (hw a (by simp)).le)
        (ih (fun e he => hw e (by simp [he])) m (fun x hx => hf x (by simp [hx])) (by simpa using hl))

theorem le_zip (w : List ℝ) (hw : ∀ e ∈ w, 0 < e) (m : List (Moved X)) (f : Moved X → ℝ) (b : ℝ)
    (hf : ∀ x ∈ m, b ≤ f x) (hl : m.length = w.length) :
    w.sum * Real.exp b ≤ (List.zipWith (fun w x => w * Real.exp (f x)) w m).sum := by
  induction w generalizing m with
  | nil => simp
  | cons a w ih =>
    cases m with
    | nil => simp at hl
    | cons x m =>
      rw [List.zipWith_cons_cons, List.sum_cons, List.sum_cons, add_mul]
      exact add_le_add (mul_le_mul_of_nonneg_left (Real.exp_le_exp.2 (hf x (by simp))) (hw a (by simp)).le)
        (ih (fun e he => hw e (by simp [he])) m (fun x hx => hf x (by simp [hx])) (by simpa using hl))

/-- Weights that grow with time steps between `lo` and `hi` grow together with one between. -/
theorem sum_between (w : List ℝ) (hw : ∀ e ∈ w, 0 < e) (hne : w ≠ []) (m : List (Moved X)) (lo hi d : ℝ)
    (hlh : lo ≤ hi) (hf : ∀ x ∈ m, lo ≤ x.step ∧ x.step ≤ hi) (hl : m.length = w.length) :
    ∃ c, lo ≤ c ∧ c ≤ hi ∧
      (List.zipWith (fun w x => w * Real.exp (x.step * d)) w m).sum = w.sum * Real.exp (c * d) := by
  have hW : 0 < w.sum := sum_pos_list w hne hw
  set S := (List.zipWith (fun w x => w * Real.exp (x.step * d)) w m).sum with hS
  have key : ∀ a b : ℝ, (∀ x ∈ m, a ≤ x.step * d ∧ x.step * d ≤ b) →
      0 < S ∧ a ≤ Real.log (S / w.sum) ∧ Real.log (S / w.sum) ≤ b := by
    intro a b h
    have h1 := le_zip w hw m (fun x => x.step * d) a (fun x hx => (h x hx).1) hl
    have h2 := zip_le w hw m (fun x => x.step * d) b (fun x hx => (h x hx).2) hl
    rw [← hS] at h1 h2
    have hp : 0 < S := lt_of_lt_of_le (mul_pos hW (Real.exp_pos _)) h1
    refine ⟨hp, ?_, ?_⟩
    · rw [Real.le_log_iff_exp_le (div_pos hp hW), le_div_iff₀ hW, mul_comm]; exact h1
    · rw [Real.log_le_iff_le_exp (div_pos hp hW), div_le_iff₀ hW, mul_comm]; exact h2
  have out : ∀ hd : d ≠ 0, 0 < S → S = w.sum * Real.exp (Real.log (S / w.sum) / d * d) := by
    intro hd hp
    rw [div_mul_cancel₀ _ hd, Real.exp_log (div_pos hp hW), mul_div_cancel₀ _ hW.ne']
  rcases lt_trichotomy d 0 with hd | hd | hd
  · obtain ⟨hp, h1, h2⟩ := key (hi * d) (lo * d) fun x hx =>
      ⟨mul_le_mul_of_nonpos_right (hf x hx).2 hd.le, mul_le_mul_of_nonpos_right (hf x hx).1 hd.le⟩
    exact ⟨Real.log (S / w.sum) / d, (le_div_iff_of_neg hd).2 h2, (div_le_iff_of_neg hd).2 h1, out hd.ne hp⟩
  · refine ⟨lo, le_refl _, hlh, ?_⟩
    rw [hS, hd, mul_zero, Real.exp_zero, mul_one]
    have := sum_scaled w m (fun x => x.step * 0) 0 hl (fun x _ => mul_zero _)
    rw [Real.exp_zero, mul_one] at this
    exact this
  · obtain ⟨hp, h1, h2⟩ := key (lo * d) (hi * d) fun x hx =>
      ⟨mul_le_mul_of_nonneg_right (hf x hx).1 hd.le, mul_le_mul_of_nonneg_right (hf x hx).2 hd.le⟩
    exact ⟨Real.log (S / w.sum) / d, (le_div_iff₀ hd).2 h1, (div_le_iff₀ hd).2 h2, out hd.ne' hp⟩

/-- What holds of the calculator when all electrons' own steps lie between `lo` and `hi`. -/
def Stepped (t lo hi : ℝ) (c : TStep) : Prop :=
  0 ≤ c.total ∧ (0 < c.total → c.den = c.total * t) ∧ lo * c.total ≤ c.num ∧ c.num ≤ hi * c.total

theorem stepped_update (t lo hi : ℝ) (c : TStep) (h : Stepped t lo hi c) (l : List EWalk) (hne : l ≠ [])
    (hw : ∀ e ∈ l, 0 < e.weight) (hq : ∀ e ∈ l, lo ≤ e.step ∧ e.step ≤ hi) :
    Stepped t lo hi (c.updateEbye t l) ∧ 0 < (c.updateEbye t l).total := by
  obtain ⟨h1, h2, h3, h4⟩ := h
  have hn : 0 < (l.map EWalk.weight).sum := by
    refine sum_pos_list _ (by simpa using hne) ?_
    intro x hx
    obtain ⟨e, he, rfl⟩ := List.mem_map.1 hx
    exact hw e he
  have a2 : lo * (l.map EWalk.weight).sum ≤ (l.map fun e => e.step * e.weight).sum := by
    rw [← List.sum_map_mul_left]
    exact List.sum_le_sum fun e he => mul_le_mul_of_nonneg_right (hq e he).1 (hw e he).le
  have a3 : (l.map fun e => e.step * e.weight).sum ≤ hi * (l.map EWalk.weight).sum := by
    rw [← List.sum_map_mul_left]
    exact List.sum_le_sum fun e he => mul_le_mul_of_nonneg_right (hq e he).2 (hw e he).le
  unfold TStep.updateEbye
  refine ⟨⟨by dsimp only; linarith, fun _ => rfl, by dsimp only; linarith, by dsimp only; linarith⟩,
    by dsimp only; linarith⟩

theorem stepped_run (t lo hi : ℝ) (hlo : 0 < lo) (ht : 0 < t) (c : TStep) (h : Stepped t lo hi c)
    (hp : 0 < c.total) : lo ≤ c.run t ∧ c.run t ≤ hi := by
  obtain ⟨h1, h2, h3, h4⟩ := h
  have hd : 0 < c.den := by rw [h2 hp]; positivity
  have hn : 0 < c.num := lt_of_lt_of_le (mul_pos hlo hp) h3
  unfold TStep.run
  rw [if_neg (by rintro (hc | hc) <;> linarith), if_neg hn.ne', Jaqmc.DmcEnergy.Props.expLog hn hd, h2 hp]
  have : t * (c.num / (c.total * t)) = c.num / c.total := by field_simp
  rw [this]
  exact ⟨(le_div_iff₀ hp).2 h3, (div_le_iff₀ hp).2 h4⟩

theorem ewalks_mem {w : List ℝ} {m : List (Moved X)} {e : EWalk} (he : e ∈ ewalks w m) :
    e.weight ∈ w ∧ ∃ x ∈ m, e.step = x.step := by
  induction w generalizing m with
  | nil => simp [ewalks] at he
  | cons a w ih =>
    cases m with
    | nil => simp [ewalks] at he
    | cons x m =>
      rcases List.mem_cons.1 he with rfl | he
      · exact ⟨by simp, x, by simp, rfl⟩
      · obtain ⟨h1, y, hy, h2⟩ := ih he
        exact ⟨by simp [h1], y, by simp [hy], h2⟩

/-- What holds of the total weight after every pass of a run with electron-by-electron moves. -/
structure GrowE (s : Setup X Key) (t0 : ℕ) (offset target E W0 lo hi : ℝ) (r : Run X Key) : Prop where
  kept : Kept s t0 offset target E E E r
  stepped : Stepped s.timeStep lo hi r.state.tstep
  sum : (r.state.walkers.map Prod.fst).sum = ((rows r.log).map Row.total).getLastD W0
  row : ∀ i row, (rows r.log)[i]? = some row → (lo ≤ row.eff ∧ row.eff ≤ hi) ∧ ∃ c, lo ≤ c ∧ c ≤ hi ∧ row.total =
    (((rows r.log).map Row.total).take i).getLastD W0 * Real.exp (c * (row.offsetBefore - E))

theorem growE_step (s : Setup X Key) (hlen : ∀ l k o m, (s.move l k o m).length = l.length) (hK : 0 < s.K)
    (hb : Fair s.branch) (hs : Sound s.branch) (hbe : s.ebye = true) (alpha E : ℝ) (hf : Fits s.pair E E)
    (hE : ExactGuide s alpha E) (hτ : 0 < s.timeStep) (lo hi : ℝ) (hlo : 0 < lo) (hlh : lo ≤ hi)
    (hstep : ∀ l k o m, ∀ x ∈ s.move l k o m, lo ≤ x.step ∧ x.step ≤ hi)
    (t0 : ℕ) (offset target W0 : ℝ) (r r' : Run X Key)
    (h : GrowE s t0 offset target E W0 lo hi r) (hst : Step s r r') : GrowE s t0 offset target E W0 lo hi r' := by
  have hB : Between s E E := fun l k o m x hx => ⟨(hE l k o m x hx).1.ge, (hE l k o m x hx).1.le⟩
  have hk := kept_step s hlen hK hb t0 offset target E hf hB r r' h.kept hst
  have hm : r.state.mixed = E := le_antisymm h.kept.mixed_in.2 h.kept.mixed_in.1
  obtain ⟨a1, a2, a3, a4⟩ := attempt_alive s hlen r.key r.state h.kept.alive
  have hlen' : (s.move (r.state.walkers.map Prod.snd) (s.split r.key).2 r.state.offset r.state.mixed).length =
      (r.state.walkers.map Prod.fst).length := by rw [hlen, List.length_map, List.length_map]
  have up : Stepped s.timeStep lo hi (attemptStep s r.key r.state) ∧ 0 < (attemptStep s r.key r.state).total := by
    have e : attemptStep s r.key r.state = r.state.tstep.updateEbye s.timeStep
        (ewalks (attemptWeights s r.key r.state)
          (s.move (r.state.walkers.map Prod.snd) (s.split r.key).2 r.state.offset r.state.mixed)) := by
      unfold attemptWeights attemptStep
      simp only [hbe, if_true]
    rw [e]
    refine stepped_update _ _ _ _ h.stepped _ ?_ ?_ ?_
    · intro hc
      have hz : (attemptWeights s r.key r.state).length = 0 ∨
          (s.move (r.state.walkers.map Prod.snd) (s.split r.key).2 r.state.offset r.state.mixed).length = 0 := by
        have := congrArg List.length hc
        unfold ewalks at this
        rw [List.length_zipWith, List.length_nil] at this
        omega
      have hwne : r.state.walkers.length ≠ 0 := fun hc => h.kept.alive.1 (List.length_eq_zero_iff.1 hc)
      rw [← a3, List.length_map, hlen', List.length_map] at hz
      rcases hz with hz | hz
      · exact a1 (List.length_eq_zero_iff.1 hz)
      · exact hwne hz
    · intro e he
      have := (ewalks_mem he).1
      rw [← a3] at this
      obtain ⟨y, hy, h⟩ := List.mem_map.1 this
      rw [← h]
      exact a2 y hy
    · intro e he
      obtain ⟨-, x, hx, h⟩ := ewalks_mem he
      rw [h]
      exact hstep _ _ _ _ x hx
  have hdl : ∀ x ∈ s.move (r.state.walkers.map Prod.snd) (s.split r.key).2 r.state.offset r.state.mixed,
      x.deltaLog = r.state.offset - E := by
    intro x hx
    obtain ⟨-, el, rate, v, vc, v', vc', hd⟩ := hE _ _ _ _ x hx
    rw [hm, branch_exact alpha s.pair E hf, branch_exact alpha s.pair E hf] at hd
    rw [hd]
    unfold weightDeltaLog
    ring
  cases hst with
  | raised => exact ⟨hk, h.stepped, h.sum, h.row⟩
  | rejected t key state hi' =>
    obtain ⟨rfl, rfl, ho⟩ := rejected_iff hi'
    have er : ∀ ws mv, rows (r.log ++ [⟨ws, mv, none⟩]) = rows r.log := by intro ws mv; simp [rows]
    refine ⟨hk, up.1, ?_, ?_⟩
    · dsimp only; rw [er]; exact h.sum
    · dsimp only; rw [er]; exact h.row
  | ok t key state row hi' =>
    obtain ⟨p, hbr, h1, h2, h3, h4, h5, h6, h7, h8, h9, h10, h11, h12, h13, h14, h15, h16, h17⟩ := ok_iff hi'
    have er : ∀ ws mv, rows (r.log ++ [⟨ws, mv, some row⟩]) = rows r.log ++ [row] := by
      intro ws mv; simp [rows]
    have htot : ∃ c, lo ≤ c ∧ c ≤ hi ∧ row.total =
        (r.state.walkers.map Prod.fst).sum * Real.exp (c * (row.offsetBefore - E)) := by
      obtain ⟨c, c1, c2, c3⟩ := sum_between (r.state.walkers.map Prod.fst)
        (by
          intro e he
          obtain ⟨y, hy, rfl⟩ := List.mem_map.1 he
          exact h.kept.alive.2 y hy)
        (by simpa using h.kept.alive.1)
        (s.move (r.state.walkers.map Prod.snd) (s.split r.key).2 r.state.offset r.state.mixed) lo hi
        (r.state.offset - E) hlh (fun x hx => hstep _ _ _ _ x hx) hlen'
      refine ⟨c, c1, c2, ?_⟩
      rw [h7, (hs _ _ _ a2 hbr).2, a3, h2, ← c3]
      unfold attemptWeights newWeight
      dsimp only
      rw [hbe]
      simp only [if_true]
      congr 1
      apply List.ext_getElem
      · simp
      · intro i i1 i2
        rw [List.getElem_zipWith, List.getElem_zipWith]
        rw [hdl _ (List.getElem_mem _)]
    refine ⟨hk, by dsimp only; rw [h17]; exact up.1, ?_, ?_⟩
    · dsimp only
      rw [er, h12, List.map_append]
      simp only [List.map_map, List.map_cons, List.map_nil]
      rw [List.getLastD_concat, h7]
      rfl
    · dsimp only
      rw [er]
      intro i row' hrow
      rcases lt_trichotomy i (rows r.log).length with hlt | rfl | hgt
      · rw [List.getElem?_append_left hlt] at hrow
        obtain ⟨g1, g2⟩ := h.row i row' hrow
        refine ⟨g1, ?_⟩
        rw [List.map_append, List.take_append_of_le_length (by simp; omega)]
        exact g2
      · rw [List.getElem?_append_right (le_refl _), Nat.sub_self] at hrow
        cases hrow
        refine ⟨by rw [h8]; exact stepped_run _ _ _ hlo hτ _ up.1 up.2, ?_⟩
        rw [h.sum] at htot
        rw [List.map_append, List.take_append_of_le_length (by simp), List.take_of_length_le (by simp)]
        exact htot
      · rw [List.getElem?_eq_none (by simp; omega)] at hrow
        cases hrow

/-- **C149 (electron by electron).** When the electrons' own effective time steps all lie between `lo` and `hi`
(positive), so does the effective time step, every iteration multiplies the logarithm of total weight over
target by `1 - amplitude τ c / τ_eff` with some `c` between, and with `amplitude τ (lo / hi + hi / lo) ≤ 2` the
total weight returns to the target geometrically. -/
theorem c149_ebye (s : Setup X Key) (hlen : ∀ l k o m, (s.move l k o m).length = l.length) (hK : 0 < s.K)
    (hb : Fair s.branch) (hs : Sound s.branch) (hbe : s.ebye = true) (alpha E : ℝ) (hf : Fits s.pair E E)
    (hE : ExactGuide s alpha E) (hint : s.interval = 1) (hτ : 0 < s.timeStep) (lo hi : ℝ) (hlo : 0 < lo)
    (hlh : lo ≤ hi) (hstep : ∀ l k o m, ∀ x ∈ s.move l k o m, lo ≤ x.step ∧ x.step ≤ hi)
    (hA : 0 ≤ s.amplitude) (hA2 : s.amplitude * s.timeStep * (lo / hi + hi / lo) ≤ 2)
    (numSteps blockSize : ℕ) (period : ℤ) (anchor : Option ℝ) (t0 : ℕ)
    (key : Key) (walkers : List (ℝ × X)) (hne : walkers ≠ []) (hpos : ∀ e ∈ walkers, 0 < e.1)
    (offset target : ℝ) (ht : 0 < target) (passes : ℕ) (r : Run X Key)
    (hr : r = loop s numSteps blockSize period anchor passes (fresh t0 key walkers offset target E)) :
    (∀ row ∈ rows r.log, lo ≤ row.eff ∧ row.eff ≤ hi) ∧
    (∀ i row row', (rows r.log)[i]? = some row → (rows r.log)[i + 1]? = some row' →
      ∃ c, lo ≤ c ∧ c ≤ hi ∧ Real.log (row'.total / target) =
        (1 - s.amplitude * s.timeStep * (c / row.eff)) * Real.log (row.total / target)) ∧
    ∀ row0, (rows r.log)[0]? = some row0 → ∀ i row, (rows r.log)[i]? = some row →
      |Real.log (row.total / target)| ≤
        (1 - s.amplitude * s.timeStep * (lo / hi)) ^ i * |Real.log (row0.total / target)| := by
  have h := loop_inv s numSteps blockSize period anchor _
    (growE_step s hlen hK hb hs hbe alpha E hf hE hτ lo hi hlo hlh hstep t0 offset target
      (walkers.map Prod.fst).sum) passes
    (fresh t0 key walkers offset target E)
    ⟨⟨inv_fresh s t0 key walkers offset target E, ⟨hne, hpos⟩, ⟨le_refl _, le_refl _⟩,
      by intro row hrow; simp [fresh, rows] at hrow, by intro _ a ha; simp [fresh] at ha⟩,
      by simp [fresh, Stepped, TStep.init],
      by simp [fresh, rows], by intro i row hrow; simp [fresh, rows] at hrow⟩
  rw [← hr] at h
  have eff : ∀ row ∈ rows r.log, lo ≤ row.eff ∧ row.eff ≤ hi := by
    intro row hrow
    obtain ⟨i, hlt, rfl⟩ := List.mem_iff_getElem.1 hrow
    exact (h.row i _ (List.getElem?_eq_getElem hlt)).1
  have step : ∀ i row row', (rows r.log)[i]? = some row → (rows r.log)[i + 1]? = some row' →
      ∃ c, lo ≤ c ∧ c ≤ hi ∧ Real.log (row'.total / target) =
        (1 - s.amplitude * s.timeStep * (c / row.eff)) * Real.log (row.total / target) := by
    intro i row row' hi1 hi2
    obtain ⟨-, c, c1, c2, hc⟩ := h.row (i + 1) row' hi2
    have g' := (h.kept.inv.row_eq (i + 1) row' hi2).2.2.2.2.1
    rw [take_last _ _ _ _ hi1] at hc g'
    refine ⟨c, c1, c2, ?_⟩
    have hrow : row ∈ rows r.log := List.mem_of_getElem? hi1
    have hk := h.kept.row row hrow
    have hm : row.mixed = E := le_antisymm hk.2.2.2.2 hk.2.2.2.1
    obtain ⟨-, -, -, -, hh⟩ := c130_history s numSteps blockSize period anchor t0 key walkers offset target E
      passes r hr
    have ho := (hh i row hi1).2.2.1
    unfold nextOffset updateOffset at ho
    rw [hint, if_pos (Nat.mod_one _), hm] at ho
    rw [hc, g', mul_div_right_comm, Real.log_mul (div_pos hk.1 ht).ne' (Real.exp_pos _).ne', Real.log_exp, ho]
    ring
  refine ⟨eff, step, ?_⟩
  intro row0 h0 i
  induction i with
  | zero =>
    intro row hi
    rw [h0] at hi
    cases hi
    simp
  | succ i ih =>
    intro row' hi'
    have hlt : i < (rows r.log).length := by
      by_contra hc
      rw [List.getElem?_eq_none (by omega)] at hi'
      cases hi'
    have hi1 := List.getElem?_eq_getElem hlt
    obtain ⟨c, c1, c2, hc⟩ := step i _ row' hi1 hi'
    obtain ⟨b1, b2⟩ := eff _ (List.getElem_mem hlt)
    have hhi : 0 < hi := lt_of_lt_of_le hlo hlh
    have he : 0 < (rows r.log)[i].eff := lt_of_lt_of_le hlo b1
    have hAt : 0 ≤ s.amplitude * s.timeStep := mul_nonneg hA hτ.le
    have q1 : lo / hi ≤ c / (rows r.log)[i].eff := div_le_div₀ (hlo.le.trans c1) c1 he b2
    have q2 : c / (rows r.log)[i].eff ≤ hi / lo := div_le_div₀ hhi.le c2 hlo b1
    have q3 := mul_le_mul_of_nonneg_left q1 hAt
    have q4 := mul_le_mul_of_nonneg_left q2 hAt
    have hq : |1 - s.amplitude * s.timeStep * (c / (rows r.log)[i].eff)| ≤
        1 - s.amplitude * s.timeStep * (lo / hi) := by
      rw [abs_le]; constructor <;> linarith
    rw [hc, abs_mul, pow_succ']
    exact (mul_le_mul hq (ih _ hi1) (abs_nonneg _) ((abs_nonneg _).trans hq)).trans_eq (by ring)

/-- The hydrogen example with electron-by-electron moves: walkers take steps of `1/100` or `1/200`. -/
noncomputable def hydrogenE : Setup ℝ ℕ :=
  { hydrogen with
    ebye := true
    move := fun l k o m => l.map fun x => ⟨x + k, -1 / 2, weightDeltaLog (1 / 3)
      (branchVal (1 / 5) (some (-2, 0)) 1 (1 / 100) 2 1 o m (-1 / 2))
      (branchVal (1 / 5) (some (-2, 0)) 1 (1 / 100) 3 1 o m (-1 / 2)), 1, 1 / 3,
        if 0 ≤ x then 1 / 100 else 1 / 200⟩ }

example (passes : ℕ) (r : Run ℝ ℕ)
    (hr : r = loop hydrogenE 100 10 (-1) none passes
      (fresh 0 0 [(1, -3), (1, 1), (1 / 2, 2), (3, 1)] (-1) 4 (-1 / 2)))
    (row0 : Row) (h0 : (rows r.log)[0]? = some row0) :
    ∀ i row, (rows r.log)[i]? = some row →
      |Real.log (row.total / 4)| ≤ (1 - 1 * (1 / 100) * ((1 / 200) / (1 / 100))) ^ i *
        |Real.log (row0.total / 4)| := by
  refine (c149_ebye hydrogenE (by intro l k o m; exact List.length_map _) (by show 0 < 10; norm_num)
    (c147_fair (Key := ℕ) (3 / 10) 2 fun k n => 1 / ((k : ℝ) + n + 2))
    (c130_branch (Key := ℕ) (3 / 10) 2 fun k n => 1 / ((k : ℝ) + n + 2)) rfl
    (1 / 5) (-1 / 2)
    (by
      intro a b hab
      have : (some (-2, 0) : Option (ℝ × ℝ)) = some (a, b) := hab
      cases this
      norm_num)
    (by
      intro l k o m x hx
      obtain ⟨y, _, rfl⟩ := List.mem_map.1 hx
      exact ⟨rfl, 1, 1 / 3, 2, 1, 3, 1, rfl⟩)
    rfl (by show (0 : ℝ) < 1 / 100; norm_num) (1 / 200) (1 / 100) (by norm_num) (by norm_num)
    (by
      intro l k o m x hx
      obtain ⟨y, _, rfl⟩ := List.mem_map.1 hx
      dsimp only
      split <;> norm_num)
    (by show (0 : ℝ) ≤ 1; norm_num)
    (by show (1 : ℝ) * (1 / 100) * ((1 / 200) / (1 / 100) + (1 / 100) / (1 / 200)) ≤ 2; norm_num)
    100 10 (-1) none 0 0 _ (by simp)
    (by
      intro e he
      simp only [List.mem_cons, List.not_mem_nil, or_false] at he
      rcases he with rfl | rfl | rfl | rfl <;> norm_num)
    (-1) 4 (by norm_num) passes r hr).2.2 row0 h0

end Jaqmc.DmcRun.Props
