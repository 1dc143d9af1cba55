import Verif.Props.DmcStart
import Mathlib.Analysis.SpecificLimits.Basic
/-! # C149: population control over a run with an exact guide -/

namespace Jaqmc.DmcRun.Props
open Jaqmc.DmcRun Jaqmc.DmcRun.Spec
open Jaqmc.DmcEnergy
open scoped Classical

variable {X Key : Type}

theorem branch_exact (alpha : ℝ) (pair : Option (ℝ × ℝ)) (E : ℝ) (hf : Fits pair E E) (electrons : ℕ)
    (timeStep v vc offset : ℝ) : branchVal alpha pair electrons timeStep v vc offset E E = offset - E := by
  unfold branchVal
  rw [fits_clip hf E (le_refl _) (le_refl _)]
  rcases lt_or_ge alpha 0 with ha | ha
  · rw [if_pos ha]; simp
  · rw [if_neg (not_lt.2 ha)]; simp

theorem sum_scaled (w : List ℝ) (m : List (Moved X)) (f : Moved X → ℝ) (c : ℝ) (hl : m.length = w.length)
    (hf : ∀ x ∈ m, f x = c) : (List.zipWith (fun w x => w * Real.exp (f x)) w m).sum = w.sum * Real.exp c := by
  induction w generalizing m with
  | nil => simp
  | cons a w ih =>
    cases m with
    | nil => simp at hl
    | cons x m =>
      rw [List.zipWith_cons_cons, List.sum_cons, List.sum_cons, ih m (by simpa using hl)
        fun x hx => hf x (by simp [hx]), hf x (by simp)]
      ring

/-- What holds of the total weight after every pass. -/
structure Grow (s : Setup X Key) (t0 : ℕ) (offset target E W0 : ℝ) (r : Run X Key) : Prop where
  kept : Kept s t0 offset target E E E r
  sum : (r.state.walkers.map Prod.fst).sum = ((rows r.log).map Row.total).getLastD W0
  row : ∀ i row, (rows r.log)[i]? = some row → row.total =
    (((rows r.log).map Row.total).take i).getLastD W0 * Real.exp (row.eff * (row.offsetBefore - E))

theorem grow_step (s : Setup X Key) (hlen : ∀ l k o m, (s.move l k o m).length = l.length) (hK : 0 < s.K)
    (hb : Fair s.branch) (hs : Sound s.branch) (hbe : s.ebye = false) (alpha E : ℝ) (hf : Fits s.pair E E)
    (hE : ExactGuide s alpha E) (t0 : ℕ) (offset target W0 : ℝ) (r r' : Run X Key)
    (h : Grow s t0 offset target E W0 r) (hst : Step s r r') : Grow s t0 offset target E W0 r' := by
  have hB : Between s E E := fun l k o m x hx => ⟨(hE l k o m x hx).1.ge, (hE l k o m x hx).1.le⟩
  have hk := kept_step s hlen hK hb t0 offset target E hf hB r r' h.kept hst
  have hm : r.state.mixed = E := le_antisymm h.kept.mixed_in.2 h.kept.mixed_in.1
  cases hst with
  | raised => exact ⟨hk, h.sum, h.row⟩
  | rejected t key state hi =>
    obtain ⟨rfl, rfl, ho⟩ := rejected_iff hi
    have er : ∀ ws mv, rows (r.log ++ [⟨ws, mv, none⟩]) = rows r.log := by intro ws mv; simp [rows]
    refine ⟨hk, ?_, ?_⟩
    · dsimp only; rw [er]; exact h.sum
    · dsimp only; rw [er]; exact h.row
  | ok t key state row hi =>
    obtain ⟨p, hbr, h1, h2, h3, h4, h5, h6, h7, h8, h9, h10, h11, h12, -⟩ := ok_iff hi
    have er : ∀ ws mv, rows (r.log ++ [⟨ws, mv, some row⟩]) = rows r.log ++ [row] := by
      intro ws mv; simp [rows]
    obtain ⟨a1, a2, a3, a4⟩ := attempt_alive s hlen r.key r.state h.kept.alive
    have htot : row.total = (r.state.walkers.map Prod.fst).sum * Real.exp (row.eff * (row.offsetBefore - E)) := by
      rw [h7, (hs _ _ _ a2 hbr).2, a3, h8, h2]
      unfold attemptWeights newWeight
      dsimp only
      rw [hbe]
      simp only [Bool.false_eq_true, if_false]
      refine sum_scaled _ _ (fun m => (attemptStep s r.key r.state).run s.timeStep * m.deltaLog) _ ?_ ?_
      · rw [hlen, List.length_map, List.length_map]
      · intro x hx
        obtain ⟨-, el, rate, v, vc, v', vc', hd⟩ := hE _ _ _ _ x hx
        rw [hm, branch_exact alpha s.pair E hf, branch_exact alpha s.pair E hf] at hd
        rw [hd]
        unfold weightDeltaLog
        ring
    refine ⟨hk, ?_, ?_⟩
    · dsimp only
      rw [er, h12, List.map_append]
      simp only [List.map_map, List.map_cons, List.map_nil]
      rw [List.getLastD_concat, h7]
      rfl
    · dsimp only
      rw [er]
      intro i row' hrow
      rcases lt_trichotomy i (rows r.log).length with hlt | rfl | hgt
      · rw [List.getElem?_append_left hlt] at hrow
        rw [h.row i row' hrow, List.map_append, List.take_append_of_le_length (by simp; omega)]
      · rw [List.getElem?_append_right (le_refl _)] at hrow
        simp only [Nat.sub_self, List.getElem?_cons_zero, Option.some.injEq] at hrow
        subst hrow
        rw [htot, h.sum, List.map_append, List.take_append_of_le_length (by simp),
          List.take_of_length_le (by simp)]
      · rw [List.getElem?_eq_none (by simp; omega)] at hrow
        cases hrow

theorem take_last (l : List Row) (f : Row → ℝ) (i : ℕ) (row : Row) (h : l[i]? = some row) (d : ℝ) :
    ((l.map f).take (i + 1)).getLastD d = f row := by
  have hi : i < l.length := by
    by_contra hc
    rw [List.getElem?_eq_none (by omega)] at h
    cases h
  rw [List.take_succ_eq_append_getElem (by simpa using hi), List.getLastD_concat, List.getElem_map]
  rw [List.getElem?_eq_getElem hi] at h
  cases h
  rfl

/-- **C149.** With an exact guide (walkers moved as a whole, a branching that keeps the total weight) the total
weight of a run changes by the energy offset alone: the first iteration multiplies the starting weight, every
further one the one before, by `exp (τ_eff (offset - E))`. -/
theorem c149_growth (s : Setup X Key) (hlen : ∀ l k o m, (s.move l k o m).length = l.length) (hK : 0 < s.K)
    (hb : Fair s.branch) (hs : Sound s.branch) (hbe : s.ebye = false) (alpha E : ℝ) (hf : Fits s.pair E E)
    (hE : ExactGuide s alpha E) (numSteps blockSize : ℕ) (period : ℤ) (anchor : Option ℝ) (t0 : ℕ)
    (key : Key) (walkers : List (ℝ × X)) (hne : walkers ≠ []) (hpos : ∀ e ∈ walkers, 0 < e.1)
    (offset target : ℝ) (passes : ℕ) (r : Run X Key)
    (hr : r = loop s numSteps blockSize period anchor passes (fresh t0 key walkers offset target E)) :
    (∀ row, (rows r.log)[0]? = some row →
      row.total = (walkers.map Prod.fst).sum * Real.exp (row.eff * (offset - E))) ∧
    ∀ i row row', (rows r.log)[i]? = some row → (rows r.log)[i + 1]? = some row' →
      row'.total = row.total * Real.exp (row'.eff * (row.offset - E)) := by
  have h := loop_inv s numSteps blockSize period anchor _
    (grow_step s hlen hK hb hs hbe alpha E hf hE t0 offset target (walkers.map Prod.fst).sum) passes
    (fresh t0 key walkers offset target E)
    ⟨⟨inv_fresh s t0 key walkers offset target E, ⟨hne, hpos⟩, ⟨le_refl _, le_refl _⟩,
      by intro row hrow; simp [fresh, rows] at hrow, by intro _ a ha; simp [fresh] at ha⟩,
      by simp [fresh, rows], by intro i row hrow; simp [fresh, rows] at hrow⟩
  rw [← hr] at h
  constructor
  · intro row h0
    have g := h.row 0 row h0
    have g' := (h.kept.inv.row_eq 0 row h0).2.2.2.2.1
    rw [List.take_zero, List.getLastD_nil] at g g'
    rw [g, g']
  · intro i row row' hi hi'
    have g := h.row (i + 1) row' hi'
    have g' := (h.kept.inv.row_eq (i + 1) row' hi').2.2.2.2.1
    rw [take_last _ _ _ _ hi] at g g'
    rw [g, g']

/-- **C149.** So population control works: updated at every iteration, it multiplies the logarithm of total
weight over target by `1 - amplitude τ (τ_eff' / τ_eff)` each time, whatever moves and branching do. -/
theorem c149_control (s : Setup X Key) (hlen : ∀ l k o m, (s.move l k o m).length = l.length) (hK : 0 < s.K)
    (hb : Fair s.branch) (hs : Sound s.branch) (hbe : s.ebye = false) (alpha E : ℝ) (hf : Fits s.pair E E)
    (hE : ExactGuide s alpha E) (hint : s.interval = 1) (numSteps blockSize : ℕ) (period : ℤ)
    (anchor : Option ℝ) (t0 : ℕ)
    (key : Key) (walkers : List (ℝ × X)) (hne : walkers ≠ []) (hpos : ∀ e ∈ walkers, 0 < e.1)
    (offset target : ℝ) (ht : 0 < target) (passes : ℕ) (r : Run X Key)
    (hr : r = loop s numSteps blockSize period anchor passes (fresh t0 key walkers offset target E)) :
    ∀ i row row', (rows r.log)[i]? = some row → (rows r.log)[i + 1]? = some row' →
      Real.log (row'.total / target) =
        (1 - s.amplitude * s.timeStep * (row'.eff / row.eff)) * Real.log (row.total / target) := by
  intro i row row' hi hi'
  obtain ⟨-, hg⟩ := c149_growth s hlen hK hb hs hbe alpha E hf hE numSteps blockSize period anchor t0 key walkers
    hne hpos offset target passes r hr
  have hB : Between s E E := fun l k o m x hx => ⟨(hE l k o m x hx).1.ge, (hE l k o m x hx).1.le⟩
  have hh := c130_healthy s hlen hs hK numSteps blockSize period anchor t0 key walkers hne hpos offset target E
    passes r hr
  have hrow : row ∈ rows r.log := List.mem_of_getElem? hi
  have hpt : 0 < row.total := hh.2.2.1 row hrow
  have hx := (c147_between s hlen hK hb hf hB numSteps blockSize period anchor t0 key walkers hne hpos offset
    target E ⟨le_refl _, le_refl _⟩ passes r hr).2.1 row hrow
  have hm : row.mixed = E := le_antisymm hx.2.2.2 hx.2.2.1
  obtain ⟨-, -, -, -, hc⟩ := c130_history s numSteps blockSize period anchor t0 key walkers offset target E
    passes r hr
  have ho := (hc i row hi).2.2.1
  unfold nextOffset updateOffset at ho
  rw [hint, if_pos (Nat.mod_one _), hm] at ho
  rw [hg i row row' hi hi', mul_div_right_comm, Real.log_mul (by positivity) (Real.exp_pos _).ne', Real.log_exp, ho]
  ring

/-- **C149.** With effective time steps for which `amplitude τ (τ_eff' / τ_eff)` stays between `a` and `2 - a`,
the total weight returns to the target geometrically: after `i` further iterations the logarithm of the ratio
is at most `(1 - a)^i` times what it was. -/
theorem c149_returns (s : Setup X Key) (hlen : ∀ l k o m, (s.move l k o m).length = l.length) (hK : 0 < s.K)
    (hb : Fair s.branch) (hs : Sound s.branch) (hbe : s.ebye = false) (alpha E : ℝ) (hf : Fits s.pair E E)
    (hE : ExactGuide s alpha E) (hint : s.interval = 1) (numSteps blockSize : ℕ) (period : ℤ)
    (anchor : Option ℝ) (t0 : ℕ)
    (key : Key) (walkers : List (ℝ × X)) (hne : walkers ≠ []) (hpos : ∀ e ∈ walkers, 0 < e.1)
    (offset target : ℝ) (ht : 0 < target) (passes : ℕ) (r : Run X Key)
    (hr : r = loop s numSteps blockSize period anchor passes (fresh t0 key walkers offset target E))
    (a : ℝ) (ha : ∀ i row row', (rows r.log)[i]? = some row → (rows r.log)[i + 1]? = some row' →
      a ≤ s.amplitude * s.timeStep * (row'.eff / row.eff) ∧
        s.amplitude * s.timeStep * (row'.eff / row.eff) ≤ 2 - a)
    (row0 : Row) (h0 : (rows r.log)[0]? = some row0) :
    ∀ i row, (rows r.log)[i]? = some row →
      |Real.log (row.total / target)| ≤ (1 - a) ^ i * |Real.log (row0.total / target)| := by
  intro i
  induction i with
  | zero =>
    intro row hi
    rw [h0] at hi
    cases hi
    simp
  | succ i ih =>
    intro row' hi'
    have hlt : i < (rows r.log).length := by
      by_contra hc
      rw [List.getElem?_eq_none (by omega)] at hi'
      cases hi'
    have hi := List.getElem?_eq_getElem hlt
    obtain ⟨a1, a2⟩ := ha i _ row' hi hi'
    rw [c149_control s hlen hK hb hs hbe alpha E hf hE hint numSteps blockSize period anchor t0 key walkers hne hpos
      offset target ht passes r hr i _ row' hi hi', abs_mul, pow_succ']
    have hq : |1 - s.amplitude * s.timeStep * (row'.eff / (rows r.log)[i].eff)| ≤ 1 - a := by
      rw [abs_le]; constructor <;> linarith
    exact (mul_le_mul hq (ih _ hi) (abs_nonneg _) ((abs_nonneg _).trans hq)).trans_eq (by ring)

/-! ## How far the effective time step can be from the time step -/

/-- What holds of the effective time step calculator when all acceptance rates lie between `q` and one. -/
def Paced (q : ℝ) (c : TStep) : Prop := 0 ≤ c.total ∧ 0 ≤ c.den ∧ q * c.den ≤ c.num ∧ c.num ≤ c.den

theorem paced_update (q : ℝ) (c : TStep) (h : Paced q c) (l : List Walk) (hw : ∀ e ∈ l, 0 < e.weight)
    (hq : ∀ e ∈ l, q ≤ e.rate ∧ e.rate ≤ 1) : Paced q (c.update l) := by
  obtain ⟨h1, h2, h3, h4⟩ := h
  have hn : 0 ≤ (l.map Walk.weight).sum := by
    refine List.sum_nonneg fun x hx => ?_
    obtain ⟨e, he, rfl⟩ := List.mem_map.1 hx
    exact (hw e he).le
  have a1 : 0 ≤ aggMean l (fun e => e.dist ^ 2) := by
    refine div_nonneg (List.sum_nonneg fun x hx => ?_) hn
    obtain ⟨e, he, rfl⟩ := List.mem_map.1 hx
    exact mul_nonneg (sq_nonneg _) (hw e he).le
  have a2 : q * aggMean l (fun e => e.dist ^ 2) ≤ aggMean l (fun e => e.rate * e.dist ^ 2) := by
    unfold aggMean
    rw [← mul_div_assoc]
    refine div_le_div_of_nonneg_right ?_ hn
    rw [← List.sum_map_mul_left]
    refine List.sum_le_sum fun e he => ?_
    rw [← mul_assoc]
    exact mul_le_mul_of_nonneg_right (mul_le_mul_of_nonneg_right (hq e he).1 (sq_nonneg _)) (hw e he).le
  have a3 : aggMean l (fun e => e.rate * e.dist ^ 2) ≤ aggMean l (fun e => e.dist ^ 2) := by
    unfold aggMean
    refine div_le_div_of_nonneg_right (List.sum_le_sum fun e he => ?_) hn
    exact mul_le_mul_of_nonneg_right (mul_le_of_le_one_left (sq_nonneg _) (hq e he).2) (hw e he).le
  have u : 0 ≤ c.total / (c.total + (l.map Walk.weight).sum) := div_nonneg h1 (by linarith)
  have v : 0 ≤ (l.map Walk.weight).sum / (c.total + (l.map Walk.weight).sum) := div_nonneg hn (by linarith)
  unfold TStep.update
  refine ⟨by dsimp only; linarith, by dsimp only; positivity, ?_, ?_⟩
  · dsimp only
    have := mul_le_mul_of_nonneg_right h3 u
    have := mul_le_mul_of_nonneg_right a2 v
    linarith
  · dsimp only
    have := mul_le_mul_of_nonneg_right h4 u
    have := mul_le_mul_of_nonneg_right a3 v
    linarith

theorem paced_run (q t : ℝ) (hq : 0 < q) (hq1 : q ≤ 1) (ht : 0 < t) (c : TStep) (h : Paced q c) :
    q * t ≤ c.run t ∧ c.run t ≤ t := by
  obtain ⟨h1, h2, h3, h4⟩ := h
  unfold TStep.run
  split
  · exact ⟨by nlinarith, le_refl _⟩
  · rename_i hc
    rw [not_or] at hc
    have hd : 0 < c.den := lt_of_le_of_ne h2 (Ne.symm hc.2)
    have hn : 0 < c.num := lt_of_lt_of_le (mul_pos hq hd) h3
    rw [if_neg hn.ne', Jaqmc.DmcEnergy.Props.expLog hn hd, mul_comm q]
    exact ⟨mul_le_mul_of_nonneg_left ((le_div_iff₀ hd).2 h3) ht.le,
      mul_le_of_le_one_right ht.le ((div_le_one hd).2 h4)⟩

theorem walks_mem {w : List ℝ} {m : List (Moved X)} {e : Walk} (he : e ∈ walks w m) :
    e.weight ∈ w ∧ ∃ x ∈ m, e.rate = x.rate := by
  induction w generalizing m with
  | nil => simp [walks] at he
  | cons a w ih =>
    cases m with
    | nil => simp [walks] at he
    | cons x m =>
      rcases List.mem_cons.1 he with rfl | he
      · exact ⟨by simp, x, by simp, rfl⟩
      · obtain ⟨h1, y, hy, h2⟩ := ih he
        exact ⟨by simp [h1], y, by simp [hy], h2⟩

/-- With acceptance rates between `q` and one every effective time step of a run lies between `q τ` and `τ`. -/
theorem c149_steps (s : Setup X Key) (hlen : ∀ l k o m, (s.move l k o m).length = l.length)
    (hs : Sound s.branch) (hbe : s.ebye = false) (q : ℝ) (hq : 0 < q) (hq1 : q ≤ 1) (hτ : 0 < s.timeStep)
    (hrate : ∀ l k o m, ∀ x ∈ s.move l k o m, q ≤ x.rate ∧ x.rate ≤ 1) (numSteps blockSize : ℕ) (period : ℤ)
    (anchor : Option ℝ) (t0 : ℕ) (key : Key) (walkers : List (ℝ × X)) (hne : walkers ≠ [])
    (hpos : ∀ e ∈ walkers, 0 < e.1) (offset target mixed : ℝ) (passes : ℕ) (r : Run X Key)
    (hr : r = loop s numSteps blockSize period anchor passes (fresh t0 key walkers offset target mixed)) :
    ∀ row ∈ rows r.log, q * s.timeStep ≤ row.eff ∧ row.eff ≤ s.timeStep := by
  have up : ∀ r : Run X Key, Healthy s r → Paced q r.state.tstep → Paced q (attemptStep s r.key r.state) := by
    intro r hh hp
    unfold attemptStep
    dsimp only
    rw [hbe, if_neg (by simp)]
    refine paced_update q _ hp _ ?_ ?_
    · intro e he
      obtain ⟨x, hx, h⟩ := List.mem_map.1 (walks_mem he).1
      rw [← h]
      exact hh.alive.2 x hx
    · intro e he
      obtain ⟨-, x, hx, h⟩ := walks_mem he
      rw [h]
      exact hrate _ _ _ _ x hx
  have h := loop_inv s numSteps blockSize period anchor
    (fun r => Healthy s r ∧ Paced q r.state.tstep ∧ ∀ row ∈ rows r.log, q * s.timeStep ≤ row.eff ∧ row.eff ≤ s.timeStep)
    (by
      rintro r r' ⟨hh, hp, he⟩ hst
      refine ⟨healthy_step s hlen hs r r' hh hst, ?_⟩
      cases hst with
      | raised => exact ⟨hp, he⟩
      | rejected t key state hi =>
        obtain ⟨rfl, rfl, ho⟩ := rejected_iff hi
        refine ⟨up r hh hp, fun row hrow => he row ?_⟩
        simpa [rows] using hrow
      | ok t key state row hi =>
        obtain ⟨p, hbr, h1, h2, h3, h4, h5, h6, h7, h8, h9, h10, h11, h12, h13, h14, h15, h16, h17⟩ := ok_iff hi
        refine ⟨by dsimp only; rw [h17]; exact up r hh hp, fun row' hrow => ?_⟩
        have hrow' : row' ∈ rows r.log ∨ row' = row := by simpa [rows] using hrow
        rcases hrow' with hold | rfl
        · exact he row' hold
        · rw [h8]
          exact paced_run q _ hq hq1 hτ _ (up r hh hp)) passes
    (fresh t0 key walkers offset target mixed)
    ⟨⟨⟨hne, hpos⟩, by intro row hrow; simp [fresh, rows] at hrow⟩, by simp [fresh, Paced, TStep.init],
      by intro row hrow; simp [fresh, rows] at hrow⟩
  rw [← hr] at h
  exact h.2.2

/-- **C149.** So with acceptance rates between `q` and one and an amplitude with `amplitude τ (q + 1/q) ≤ 2` the
total weight always returns to the target geometrically. -/
theorem c149_rates (s : Setup X Key) (hlen : ∀ l k o m, (s.move l k o m).length = l.length) (hK : 0 < s.K)
    (hb : Fair s.branch) (hs : Sound s.branch) (hbe : s.ebye = false) (alpha E : ℝ) (hf : Fits s.pair E E)
    (hE : ExactGuide s alpha E) (hint : s.interval = 1) (q : ℝ) (hq : 0 < q) (hq1 : q ≤ 1) (hτ : 0 < s.timeStep)
    (hrate : ∀ l k o m, ∀ x ∈ s.move l k o m, q ≤ x.rate ∧ x.rate ≤ 1) (hA : 0 ≤ s.amplitude)
    (hA2 : s.amplitude * s.timeStep * (q + 1 / q) ≤ 2) (numSteps blockSize : ℕ) (period : ℤ)
    (anchor : Option ℝ) (t0 : ℕ)
    (key : Key) (walkers : List (ℝ × X)) (hne : walkers ≠ []) (hpos : ∀ e ∈ walkers, 0 < e.1)
    (offset target : ℝ) (ht : 0 < target) (passes : ℕ) (r : Run X Key)
    (hr : r = loop s numSteps blockSize period anchor passes (fresh t0 key walkers offset target E))
    (row0 : Row) (h0 : (rows r.log)[0]? = some row0) :
    ∀ i row, (rows r.log)[i]? = some row →
      |Real.log (row.total / target)| ≤
        (1 - s.amplitude * s.timeStep * q) ^ i * |Real.log (row0.total / target)| := by
  have he := c149_steps s hlen hs hbe q hq hq1 hτ hrate numSteps blockSize period anchor t0 key walkers hne hpos
    offset target E passes r hr
  refine c149_returns s hlen hK hb hs hbe alpha E hf hE hint numSteps blockSize period anchor t0 key walkers hne
    hpos offset target ht passes r hr _ ?_ row0 h0
  intro i row row' hi hi'
  obtain ⟨b1, b2⟩ := he row (List.mem_of_getElem? hi)
  obtain ⟨b3, b4⟩ := he row' (List.mem_of_getElem? hi')
  have hp : 0 < row.eff := lt_of_lt_of_le (mul_pos hq hτ) b1
  have hAt : 0 ≤ s.amplitude * s.timeStep := mul_nonneg hA hτ.le
  constructor
  · refine mul_le_mul_of_nonneg_left ((le_div_iff₀ hp).2 ?_) hAt
    exact (mul_le_mul_of_nonneg_left b2 hq.le).trans b3
  · have : row'.eff / row.eff ≤ 1 / q := by
      rw [div_le_div_iff₀ hp hq]
      nlinarith
    have := mul_le_mul_of_nonneg_left this hAt
    linarith

/-- The law holds in the example of C147 also for a start with too much weight (thresholds as there). -/
example (passes : ℕ) (r : Run ℝ ℕ)
    (hr : r = loop hydrogen 100 10 (-1) none passes
      (fresh 0 0 [(1, 0), (1, 1), (1 / 2, 2), (3, 1)] (-1) 4 (-1 / 2))) :
    ∀ i row row', (rows r.log)[i]? = some row → (rows r.log)[i + 1]? = some row' →
      Real.log (row'.total / 4) = (1 - 1 * (1 / 100) * (row'.eff / row.eff)) * Real.log (row.total / 4) := by
  exact c149_control hydrogen (by intro l k o m; exact List.length_map _) (by show 0 < 10; norm_num)
    (c147_fair (Key := ℕ) (3 / 10) 2 fun k n => 1 / ((k : ℝ) + n + 2))
    (c130_branch (Key := ℕ) (3 / 10) 2 fun k n => 1 / ((k : ℝ) + n + 2)) rfl
    (1 / 5) (-1 / 2)
    (by
      intro a b hab
      have : (some (-2, 0) : Option (ℝ × ℝ)) = some (a, b) := hab
      cases this
      norm_num)
    (by
      intro l k o m x hx
      obtain ⟨y, _, rfl⟩ := List.mem_map.1 hx
      exact ⟨rfl, 1, 1 / 3, 2, 1, 3, 1, rfl⟩)
    rfl 100 10 (-1) none 0 0 _ (by simp)
    (by
      intro e he
      simp only [List.mem_cons, List.not_mem_nil, or_false] at he
      rcases he with rfl | rfl | rfl | rfl <;> norm_num)
    (-1) 4 (by norm_num) passes r hr

/-- There every acceptance rate is `1/3`, so the total weight returns to the target at least that fast. -/
example (passes : ℕ) (r : Run ℝ ℕ)
    (hr : r = loop hydrogen 100 10 (-1) none passes
      (fresh 0 0 [(1, 0), (1, 1), (1 / 2, 2), (3, 1)] (-1) 4 (-1 / 2)))
    (row0 : Row) (h0 : (rows r.log)[0]? = some row0) :
    ∀ i row, (rows r.log)[i]? = some row →
      |Real.log (row.total / 4)| ≤ (1 - 1 * (1 / 100) * (1 / 3)) ^ i * |Real.log (row0.total / 4)| := by
  exact c149_rates hydrogen (by intro l k o m; exact List.length_map _) (by show 0 < 10; norm_num)
    (c147_fair (Key := ℕ) (3 / 10) 2 fun k n => 1 / ((k : ℝ) + n + 2))
    (c130_branch (Key := ℕ) (3 / 10) 2 fun k n => 1 / ((k : ℝ) + n + 2)) rfl
    (1 / 5) (-1 / 2)
    (by
      intro a b hab
      have : (some (-2, 0) : Option (ℝ × ℝ)) = some (a, b) := hab
      cases this
      norm_num)
    (by
      intro l k o m x hx
      obtain ⟨y, _, rfl⟩ := List.mem_map.1 hx
      exact ⟨rfl, 1, 1 / 3, 2, 1, 3, 1, rfl⟩)
    rfl (1 / 3) (by norm_num) (by norm_num) (by show (0 : ℝ) < 1 / 100; norm_num)
    (by
      intro l k o m x hx
      obtain ⟨y, _, rfl⟩ := List.mem_map.1 hx
      dsimp only
      norm_num)
    (by show (0 : ℝ) ≤ 1; norm_num) (by show (1 : ℝ) * (1 / 100) * (1 / 3 + 1 / (1 / 3)) ≤ 2; norm_num)
    100 10 (-1) none 0 0 _ (by simp)
    (by
      intro e he
      simp only [List.mem_cons, List.not_mem_nil, or_false] at he
      rcases he with rfl | rfl | rfl | rfl <;> norm_num)
    (-1) 4 (by norm_num) passes r hr row0 h0

end Jaqmc.DmcRun.Props
