import Verif.Model.DmcRun
import Verif.Props.DmcEnergy
import Verif.Props.DmcBranch
import Mathlib.Tactic.Linarith
import Mathlib.Tactic.NormNum
import Mathlib.Tactic.FieldSimp
import Mathlib.Tactic.Positivity
/-! # C130: the iterations of a legacy DMC run -/

namespace Jaqmc.DmcRun.Props
open Jaqmc.DmcRun
open Jaqmc.DmcEnergy
open scoped Classical

variable {X Key : Type}

/-- All walkers tried so far, as the effective time step counts them. -/
noncomputable def tries (s : Setup X Key) (log : List (Attempt X)) : TStep :=
  if s.ebye then
    (log.map fun a => ewalks (List.zipWith (fun w m => newWeight w m.step m.deltaLog) a.weights a.moved)
      a.moved).foldl (TStep.updateEbye s.timeStep) TStep.init
  else (log.map fun a => walks a.weights a.moved).foldl TStep.update TStep.init

/-- The metrics of the iterations that counted. -/
def rows (log : List (Attempt X)) : List Row := log.filterMap Attempt.row

/-- What the mixed estimator was called with. -/
noncomputable def callOf (l : List Row) (i : ℕ) : Call :=
  match l[i]? with
  | some r => ⟨r.offsetBefore, r.average, r.total, r.eff⟩
  | none => ⟨0, 0, 0, 0⟩

/-- A run that starts at step `t0` with fresh calculators. -/
def fresh (t0 : ℕ) (key : Key) (walkers : List (ℝ × X)) (offset target mixed : ℝ) : Run X Key :=
  ⟨t0, key, ⟨walkers, offset, target, mixed, Calc.init, TStep.init⟩, [], false⟩

/-- One pass of the loop. -/
inductive Step (s : Setup X Key) (r : Run X Key) : Run X Key → Prop
  | ok (t : ℕ) (key : Key) (state : State X) (row : Row)
      (h : iteration s r.t r.key r.state = .succeeded t key state row) :
      Step s r ⟨t, key, state, r.log ++ [⟨r.state.walkers.map Prod.fst,
        s.move (r.state.walkers.map Prod.snd) (s.split r.key).2 r.state.offset r.state.mixed, some row⟩], false⟩
  | rejected (t : ℕ) (key : Key) (state : State X)
      (h : iteration s r.t r.key r.state = .rejected t key state) :
      Step s r ⟨t, key, state, r.log ++ [⟨r.state.walkers.map Prod.fst,
        s.move (r.state.walkers.map Prod.snd) (s.split r.key).2 r.state.offset r.state.mixed, none⟩], false⟩
  | raised : Step s r { r with raised := true }

theorem loop_inv (s : Setup X Key) (n b : ℕ) (p : ℤ) (a : Option ℝ) (P : Run X Key → Prop)
    (hP : ∀ r r', P r → Step s r r' → P r') : ∀ fuel r, P r → P (loop s n b p a fuel r) := by
  intro fuel
  induction fuel with
  | zero => intro r h; exact h
  | succ k ih =>
    intro r h
    unfold loop
    by_cases hc : r.t < n + b + 1 ∧ r.raised = false
    · rw [if_pos hc]
      dsimp only
      cases hi : iteration s r.t r.key r.state with
      | succeeded t key state row => exact ih _ (hP _ _ h (.ok t key state row hi))
      | rejected t key state => exact ih _ (hP _ _ h (.rejected t key state hi))
      | raised => exact hP _ _ h .raised
    · rw [if_neg hc]; exact h

/-- The effective time step and the new weights of an attempt. -/
noncomputable def attemptStep (s : Setup X Key) (key : Key) (state : State X) : TStep :=
  let moved := s.move (state.walkers.map Prod.snd) (s.split key).2 state.offset state.mixed
  let old := state.walkers.map Prod.fst
  if s.ebye then state.tstep.updateEbye s.timeStep
    (ewalks (List.zipWith (fun w m => newWeight w m.step m.deltaLog) old moved) moved)
  else state.tstep.update (walks old moved)

/-- The weights after the move. -/
noncomputable def attemptWeights (s : Setup X Key) (key : Key) (state : State X) : List ℝ :=
  let moved := s.move (state.walkers.map Prod.snd) (s.split key).2 state.offset state.mixed
  List.zipWith (fun w m => newWeight w
    (if s.ebye then m.step else (attemptStep s key state).run s.timeStep) m.deltaLog)
    (state.walkers.map Prod.fst) moved

/-- The energies after the move. -/
def attemptEnergies (s : Setup X Key) (key : Key) (state : State X) : List ℝ :=
  (s.move (state.walkers.map Prod.snd) (s.split key).2 state.offset state.mixed).map Moved.energy

/-- The population that is branched. -/
noncomputable def attemptPop (s : Setup X Key) (key : Key) (state : State X) : List (ℝ × (X × ℝ)) :=
  (attemptWeights s key state).zip
    ((s.move (state.walkers.map Prod.snd) (s.split key).2 state.offset state.mixed).map
      fun m => (m.walker, m.energy))

theorem iteration_eq (s : Setup X Key) (index : ℕ) (key : Key) (state : State X) :
    iteration s index key state =
      let before := averageEnergy s.pair ((attemptEnergies s key state).zip (attemptWeights s key state))
      let key2 := (s.split (s.split key).1).1
      if isOutlier s.threshold before state.mixed then
        .rejected index key2 { state with tstep := attemptStep s key state }
      else match s.branch (s.split (s.split key).1).2 (attemptPop s key state) with
        | none => .raised
        | some p =>
          let total := (p.map Prod.fst).sum
          let average := averageEnergy s.pair (p.map fun e => (e.2.2, e.1))
          let eff := (attemptStep s key state).run s.timeStep
          let r := state.estimator.run s.K s.T ⟨state.offset, average, total, eff⟩
          let offset := nextOffset index s.interval s.amplitude s.timeStep eff r.2 total state.target state.offset
          .succeeded (index + 1) key2
            ⟨p.map fun e => (e.1, e.2.1), offset, state.target, r.2, r.1, attemptStep s key state⟩
            ⟨index, state.offset, state.mixed, before, average, total, eff, r.2, offset⟩ := by
  unfold iteration attemptPop attemptEnergies attemptWeights attemptStep
  cases s.ebye <;> rfl

theorem ok_iff {s : Setup X Key} {index t : ℕ} {key k : Key} {state st : State X} {row : Row}
    (h : iteration s index key state = .succeeded t k st row) :
    ∃ p, s.branch (s.split (s.split key).1).2 (attemptPop s key state) = some p ∧
      row.index = index ∧ row.offsetBefore = state.offset ∧ row.mixedBefore = state.mixed ∧
      row.before = averageEnergy s.pair ((attemptEnergies s key state).zip (attemptWeights s key state)) ∧
      ¬ isOutlier s.threshold row.before row.mixedBefore ∧
      row.average = averageEnergy s.pair (p.map fun e => (e.2.2, e.1)) ∧
      row.total = (p.map Prod.fst).sum ∧ row.eff = (attemptStep s key state).run s.timeStep ∧
      row.mixed = (state.estimator.run s.K s.T ⟨row.offsetBefore, row.average, row.total, row.eff⟩).2 ∧
      row.offset = nextOffset index s.interval s.amplitude s.timeStep row.eff row.mixed row.total state.target
        row.offsetBefore ∧
      t = index + 1 ∧ st.walkers = p.map (fun e => (e.1, e.2.1)) ∧ st.offset = row.offset ∧
      st.target = state.target ∧ st.mixed = row.mixed ∧
      st.estimator = (state.estimator.run s.K s.T ⟨row.offsetBefore, row.average, row.total, row.eff⟩).1 ∧
      st.tstep = attemptStep s key state := by
  rw [iteration_eq] at h
  dsimp only at h
  by_cases ho : isOutlier s.threshold
      (averageEnergy s.pair ((attemptEnergies s key state).zip (attemptWeights s key state))) state.mixed
  · rw [if_pos ho] at h; cases h
  · rw [if_neg ho] at h
    cases hb : s.branch (s.split (s.split key).1).2 (attemptPop s key state) with
    | none => rw [hb] at h; cases h
    | some p =>
      rw [hb] at h
      dsimp only at h
      cases h
      exact ⟨p, rfl, rfl, rfl, rfl, rfl, ho, rfl, rfl, rfl, rfl, rfl, rfl, rfl, rfl, rfl, rfl, rfl, rfl⟩

theorem rejected_iff {s : Setup X Key} {index t : ℕ} {key k : Key} {state st : State X}
    (h : iteration s index key state = .rejected t k st) :
    t = index ∧ st = { state with tstep := attemptStep s key state } ∧
    isOutlier s.threshold
      (averageEnergy s.pair ((attemptEnergies s key state).zip (attemptWeights s key state))) state.mixed := by
  rw [iteration_eq] at h
  dsimp only at h
  by_cases ho : isOutlier s.threshold
      (averageEnergy s.pair ((attemptEnergies s key state).zip (attemptWeights s key state))) state.mixed
  · rw [if_pos ho] at h
    cases h
    exact ⟨rfl, rfl, ho⟩
  · rw [if_neg ho] at h
    cases hb : s.branch (s.split (s.split key).1).2 (attemptPop s key state) with
    | none => rw [hb] at h; cases h
    | some p => rw [hb] at h; cases h

theorem tries_append (s : Setup X Key) (key : Key) (state : State X) (log : List (Attempt X))
    (h : state.tstep = tries s log) (row : Option Row) :
    attemptStep s key state = tries s (log ++ [⟨state.walkers.map Prod.fst,
      s.move (state.walkers.map Prod.snd) (s.split key).2 state.offset state.mixed, row⟩]) := by
  unfold attemptStep tries at *
  rw [h]
  cases s.ebye <;> simp

theorem before_congr (K T : ℕ) (a b : ℕ → Call) : ∀ n, (∀ i, i < n → a i = b i) →
    Calc.before K T a n = Calc.before K T b n := by
  intro n
  induction n with
  | zero => intros; rfl
  | succ n ih =>
    intro h
    rw [Calc.before, Calc.before, ih fun i hi => h i (by omega), h n (by omega)]

theorem result_congr (K T : ℕ) (a b : ℕ → Call) (n : ℕ) (h : ∀ i, i ≤ n → a i = b i) :
    Calc.result K T a n = Calc.result K T b n := by
  unfold Calc.result
  rw [before_congr K T a b n fun i hi => h i (by omega), h n (le_refl _)]

theorem callOf_append (l : List Row) (r : Row) (i : ℕ) (hi : i < l.length) :
    callOf (l ++ [r]) i = callOf l i := by
  unfold callOf
  rw [List.getElem?_append_left hi]

theorem callOf_last (l : List Row) (r : Row) :
    callOf (l ++ [r]) l.length = ⟨r.offsetBefore, r.average, r.total, r.eff⟩ := by
  unfold callOf
  simp

/-- What holds after every pass. -/
structure Inv (s : Setup X Key) (t0 : ℕ) (offset target mixed : ℝ) (r : Run X Key) : Prop where
  target_eq : r.state.target = target
  step_eq : r.state.tstep = tries s r.log
  t_eq : r.t = t0 + (rows r.log).length
  est_eq : r.state.estimator = Calc.before s.K s.T (callOf (rows r.log)) (rows r.log).length
  last_eq : r.state.offset = ((rows r.log).map Row.offset).getLastD offset ∧
    r.state.mixed = ((rows r.log).map Row.mixed).getLastD mixed
  row_eq : ∀ i row, (rows r.log)[i]? = some row →
    row.index = t0 + i ∧ row.mixed = Calc.result s.K s.T (callOf (rows r.log)) i ∧
    row.offset = nextOffset row.index s.interval s.amplitude s.timeStep row.eff row.mixed row.total target
      row.offsetBefore ∧
    ¬ isOutlier s.threshold row.before row.mixedBefore ∧
    row.offsetBefore = (((rows r.log).map Row.offset).take i).getLastD offset ∧
    row.mixedBefore = (((rows r.log).map Row.mixed).take i).getLastD mixed
  eff_eq : ∀ pre a post row, r.log = pre ++ a :: post → a.row = some row →
    row.eff = (tries s (pre ++ [a])).run s.timeStep

theorem append_inj {α : Type} {l pre post : List α} {x a : α} (h : l ++ [x] = pre ++ a :: post) :
    (post = [] ∧ l = pre ∧ x = a) ∨ ∃ post', post = post' ++ [x] ∧ l = pre ++ a :: post' := by
  rcases List.eq_nil_or_concat post with rfl | ⟨p', y, rfl⟩
  · left
    have := List.append_inj' h rfl
    exact ⟨rfl, this.1, by simpa using this.2⟩
  · right
    rw [List.concat_eq_append] at h ⊢
    have h' : l ++ [x] = (pre ++ a :: p') ++ [y] := by simpa using h
    have := List.append_inj' h' rfl
    have e : x = y := by simpa using this.2
    exact ⟨p', by rw [e], this.1⟩

theorem inv_step (s : Setup X Key) (t0 : ℕ) (offset target mixed : ℝ) (r r' : Run X Key)
    (h : Inv s t0 offset target mixed r) (hs : Step s r r') : Inv s t0 offset target mixed r' := by
  cases hs with
  | raised => exact ⟨h.target_eq, h.step_eq, h.t_eq, h.est_eq, h.last_eq, h.row_eq, h.eff_eq⟩
  | rejected t key state hi =>
    obtain ⟨rfl, rfl, ho⟩ := rejected_iff hi
    have er : ∀ ws mv, rows (r.log ++ [⟨ws, mv, none⟩]) = rows r.log := by intro ws mv; simp [rows]
    refine ⟨h.target_eq, tries_append s r.key r.state r.log h.step_eq none, ?_, ?_, ?_, ?_, ?_⟩
    · dsimp only; rw [er]; exact h.t_eq
    · dsimp only; rw [er]; exact h.est_eq
    · dsimp only; rw [er]; exact h.last_eq
    · dsimp only; rw [er]; exact h.row_eq
    · intro pre a post row hl ha
      rcases append_inj hl with ⟨_, _, rfl⟩ | ⟨post', _, hl'⟩
      · simp at ha
      · exact h.eff_eq pre a post' row hl' ha
  | ok t key state row hi =>
    obtain ⟨p, hb, h1, h2, h3, h4, h5, h6, h7, h8, h9, h10, h11, h12, h13, h14, h15, h16, h17⟩ := ok_iff hi
    have er : ∀ ws mv, rows (r.log ++ [⟨ws, mv, some row⟩]) = rows r.log ++ [row] := by
      intro ws mv; simp [rows]
    have hstep := tries_append s r.key r.state r.log h.step_eq (some row)
    have hcall : ∀ i, i < (rows r.log).length → callOf (rows r.log ++ [row]) i = callOf (rows r.log) i :=
      fun i hi => callOf_append _ _ _ hi
    refine ⟨h14.trans h.target_eq, h17.trans hstep, ?_, ?_, ?_, ?_, ?_⟩
    · dsimp only; rw [er, List.length_append, h11, h.t_eq]; rfl
    · dsimp only
      rw [er, List.length_append, List.length_singleton, Calc.before, callOf_last, h16,
        before_congr s.K s.T _ _ _ hcall, ← h.est_eq]
    · dsimp only
      rw [er, h13, h15]
      simp
    · dsimp only
      rw [er]
      intro i row' hrow
      rcases lt_trichotomy i (rows r.log).length with hlt | rfl | hgt
      · rw [List.getElem?_append_left hlt] at hrow
        obtain ⟨g1, g2, g3, g4, g5, g6⟩ := h.row_eq i row' hrow
        refine ⟨g1, ?_, g3, g4, ?_, ?_⟩
        · rw [g2]
          exact result_congr _ _ _ _ _ fun j hj => (hcall j (by omega)).symm
        · rw [g5, List.map_append, List.take_append_of_le_length (by simp; omega)]
        · rw [g6, List.map_append, List.take_append_of_le_length (by simp; omega)]
      · rw [List.getElem?_append_right (le_refl _)] at hrow
        simp only [Nat.sub_self, List.getElem?_cons_zero, Option.some.injEq] at hrow
        subst hrow
        refine ⟨h1.trans h.t_eq, ?_, ?_, h5, ?_, ?_⟩
        · rw [h9]
          unfold Calc.result
          rw [callOf_last, before_congr s.K s.T _ _ _ hcall, ← h.est_eq]
        · rw [h10, h1, h.target_eq]
        · rw [h2, h.last_eq.1, List.map_append, List.take_append_of_le_length (by simp),
            List.take_of_length_le (by simp)]
        · rw [h3, h.last_eq.2, List.map_append, List.take_append_of_le_length (by simp),
            List.take_of_length_le (by simp)]
      · rw [List.getElem?_eq_none (by simp; omega)] at hrow
        cases hrow
    · intro pre a post row' hl ha
      rcases append_inj hl with ⟨_, rfl, rfl⟩ | ⟨post', _, hl'⟩
      · cases ha
        rw [h8, hstep]
      · exact h.eff_eq pre a post' row' hl' ha

theorem inv_fresh (s : Setup X Key) (t0 : ℕ) (key : Key) (walkers : List (ℝ × X)) (offset target mixed : ℝ) :
    Inv s t0 offset target mixed (fresh t0 key walkers offset target mixed) := by
  refine ⟨rfl, ?_, rfl, rfl, ⟨rfl, rfl⟩, ?_, ?_⟩
  · unfold tries fresh; cases s.ebye <;> rfl
  · intro i row h; simp [fresh, rows] at h
  · intro pre a post row h; simp [fresh] at h

/-- **C130.** After any number of passes of a run with fresh calculators, whatever was rejected in between:
the step number counts the iterations that counted, their metrics are numbered without gap, and the mixed
estimator of each is the one (C86) of exactly the iterations that counted up to it.  Each used the offset and
the anchor left by the one before, and its average energy before branching was no outlier for that anchor.
The target never changes. -/
theorem c130_history (s : Setup X Key) (numSteps blockSize : ℕ) (period : ℤ) (anchor : Option ℝ) (t0 : ℕ)
    (key : Key) (walkers : List (ℝ × X)) (offset target mixed : ℝ) (passes : ℕ) (r : Run X Key)
    (hr : r = loop s numSteps blockSize period anchor passes (fresh t0 key walkers offset target mixed)) :
    r.t = t0 + (rows r.log).length ∧ r.state.target = target ∧
    r.state.offset = ((rows r.log).map Row.offset).getLastD offset ∧
    r.state.mixed = ((rows r.log).map Row.mixed).getLastD mixed ∧
    ∀ i row, (rows r.log)[i]? = some row →
      row.index = t0 + i ∧
      row.mixed = Calc.result s.K s.T (callOf (rows r.log)) i ∧
      row.offset = nextOffset row.index s.interval s.amplitude s.timeStep row.eff row.mixed row.total target
        row.offsetBefore ∧
      ¬ isOutlier s.threshold row.before row.mixedBefore ∧
      row.offsetBefore = (((rows r.log).map Row.offset).take i).getLastD offset ∧
      row.mixedBefore = (((rows r.log).map Row.mixed).take i).getLastD mixed := by
  have h := loop_inv s numSteps blockSize period anchor _ (inv_step s t0 offset target mixed) passes _
    (inv_fresh s t0 key walkers offset target mixed)
  rw [← hr] at h
  exact ⟨h.t_eq, h.target_eq, h.last_eq.1, h.last_eq.2, h.row_eq⟩

/-- **C130 (finding).** The effective time step, however, counts the walkers of all attempts, also of those
that were rejected as outliers. -/
theorem c130_time_step (s : Setup X Key) (numSteps blockSize : ℕ) (period : ℤ) (anchor : Option ℝ) (t0 : ℕ)
    (key : Key) (walkers : List (ℝ × X)) (offset target mixed : ℝ) (passes : ℕ) (r : Run X Key)
    (hr : r = loop s numSteps blockSize period anchor passes (fresh t0 key walkers offset target mixed)) :
    r.state.tstep = tries s r.log ∧
    ∀ pre a post row, r.log = pre ++ a :: post → a.row = some row →
      row.eff = (tries s (pre ++ [a])).run s.timeStep := by
  have h := loop_inv s numSteps blockSize period anchor _ (inv_step s t0 offset target mixed) passes _
    (inv_fresh s t0 key walkers offset target mixed)
  rw [← hr] at h
  exact ⟨h.step_eq, h.eff_eq⟩

/-- **C130.** A rejected attempt leaves walkers, weights, offset, anchor, estimator and step number alone and
is rejected because its energy is an outlier. -/
theorem c130_rejected (s : Setup X Key) (index t : ℕ) (key k : Key) (state st : State X)
    (h : iteration s index key state = .rejected t k st) :
    t = index ∧ st.walkers = state.walkers ∧ st.offset = state.offset ∧ st.target = state.target ∧
    st.mixed = state.mixed ∧ st.estimator = state.estimator ∧
    isOutlier s.threshold
      (averageEnergy s.pair ((attemptEnergies s key state).zip (attemptWeights s key state))) state.mixed := by
  obtain ⟨rfl, rfl, ho⟩ := rejected_iff h
  exact ⟨rfl, rfl, rfl, rfl, rfl, rfl, ho⟩

/-- **C130 (finding).** Two arguments of `run` have no effect: `effective_time_step_update_period` does not
stop the updates of the effective time step, and `anchor_energy` is not the anchor for outliers. -/
theorem c130_settings_ignored (s : Setup X Key) (numSteps blockSize : ℕ) (period period' : ℤ)
    (anchor anchor' : Option ℝ) : ∀ (passes : ℕ) (r : Run X Key),
    loop s numSteps blockSize period anchor passes r = loop s numSteps blockSize period' anchor' passes r := by
  intro passes
  induction passes with
  | zero => intro r; rfl
  | succ k ih =>
    intro r
    unfold loop
    by_cases hc : r.t < numSteps + blockSize + 1 ∧ r.raised = false
    · rw [if_pos hc, if_pos hc]
      dsimp only
      cases iteration s r.t r.key r.state with
      | succeeded t key state row => exact ih _
      | rejected t key state => exact ih _
      | raised => rfl
    · rw [if_neg hc, if_neg hc]

/-! ## Weights and energies -/

/-- A branching step that keeps the total weight and makes no weight that is not positive. -/
def Sound {Y : Type} (branch : Key → List (ℝ × Y) → Option (List (ℝ × Y))) : Prop :=
  ∀ k l p, (∀ e ∈ l, 0 < e.1) → branch k l = some p →
    (∀ e ∈ p, 0 < e.1) ∧ (p.map Prod.fst).sum = (l.map Prod.fst).sum

theorem helper_pos {N m : ℕ} (h : 2 * m ≤ N) (w : Fin N → ℝ) (hw : ∀ i, 0 < w i) (minT : ℝ) (u : Fin m → ℝ)
    (st : (Fin N → ℝ) × (Fin N → ℕ)) (hs : ∀ i, 0 < st.1 i) (j : Fin m) :
    ∀ i, 0 < (DmcBranch.helper h w minT u st j).1 i := by
  intro i
  unfold DmcBranch.helper
  split
  · unfold DmcBranch.updateWeight
    dsimp only
    have key : ∀ k : Fin N, 0 < Function.update st.1 k
        (w (DmcBranch.pairFst h w j) + w (DmcBranch.pairSnd h w j)) i := by
      intro k
      by_cases hk : i = k
      · subst hk; rw [Function.update_self]; exact add_pos (hw _) (hw _)
      · rw [Function.update_of_ne hk]; exact hs i
    exact key _
  · exact hs i

theorem foldl_pos {N m : ℕ} (h : 2 * m ≤ N) (w : Fin N → ℝ) (hw : ∀ i, 0 < w i) (minT : ℝ) (u : Fin m → ℝ) :
    ∀ (l : List (Fin m)) (st : (Fin N → ℝ) × (Fin N → ℕ)), (∀ i, 0 < st.1 i) →
    ∀ i, 0 < (l.foldl (DmcBranch.helper h w minT u) st).1 i := by
  intro l
  induction l with
  | nil => intro st hs; exact hs
  | cons a l ih => intro st hs; exact ih _ (helper_pos h w hw minT u st hs a)

/-- **C130.** The variable-size branching is sound in this sense (its other properties are C84). -/
theorem c130_branch {Y : Type} (minT maxT : ℝ) (u : Key → ℕ → ℝ) : Sound (Y := Y) (varBranch minT maxT u) := by
  intro k l p hpos hb
  unfold varBranch at hb
  constructor
  · have hw : ∀ i : Fin l.length, 0 < (l.get i).1 := fun i => hpos _ (List.get_mem l i)
    unfold DmcBranch.branch at hb
    split at hb
    · rename_i hN
      cases hb
      intro e he
      unfold DmcBranch.repeatRows at he
      obtain ⟨i, _, hi⟩ := List.mem_flatMap.1 he
      obtain rfl := List.eq_of_mem_replicate hi
      unfold DmcBranch.doBranch
      dsimp only
      refine mul_pos (foldl_pos hN _ hw _ _ _ _ hw i) ?_
      split <;> norm_num
    · cases hb
  · have := DmcBranch.Props.c84_weight _ _ minT maxT (u k) p hb
    unfold DmcBranch.total at this
    rw [this, ← List.sum_ofFn]
    congr 1
    exact List.ext_getElem (by simp) (by simp)

theorem sum_pos_list : ∀ l : List ℝ, l ≠ [] → (∀ x ∈ l, 0 < x) → 0 < l.sum
  | [], h, _ => absurd rfl h
  | [x], _, h => by simpa using h x (by simp)
  | x :: y :: l, _, h => by
    have := sum_pos_list (y :: l) (by simp) fun z hz => h z (by simp [List.mem_cons.1 hz])
    rw [List.sum_cons]
    exact add_pos (h x (by simp)) this

theorem average_between (lo hi : ℝ) (hlh : lo ≤ hi) (l : List (ℝ × ℝ)) (hne : l ≠ [])
    (hpos : ∀ e ∈ l, 0 < e.2) :
    lo ≤ averageEnergy (some (lo, hi)) l ∧ averageEnergy (some (lo, hi)) l ≤ hi := by
  have hsum : 0 < (l.map Prod.snd).sum := sum_pos_list _ (by simpa using hne) (by
    intro x hx
    obtain ⟨e, he, rfl⟩ := List.mem_map.1 hx
    exact hpos e he)
  have hclip : ∀ x, lo ≤ clipPair (some (lo, hi)) x ∧ clipPair (some (lo, hi)) x ≤ hi := by
    intro x
    unfold clipPair clip
    exact ⟨le_min (le_max_right _ _) hlh, min_le_right _ _⟩
  have hone : ∀ c : ℝ, (l.map fun e => c * (e.2 / (l.map Prod.snd).sum)).sum = c := by
    intro c
    have : (fun e : ℝ × ℝ => c * (e.2 / (l.map Prod.snd).sum))
        = fun e => (c / (l.map Prod.snd).sum) * e.2 := by funext e; ring
    rw [this, List.sum_map_mul_left]
    exact div_mul_cancel₀ c hsum.ne'
  unfold averageEnergy
  constructor
  · refine (hone lo).symm.le.trans (List.sum_le_sum fun e he => ?_)
    exact mul_le_mul_of_nonneg_right (hclip _).1 (div_nonneg (hpos e he).le hsum.le)
  · refine (List.sum_le_sum fun e he => ?_).trans (hone hi).le
    exact mul_le_mul_of_nonneg_right (hclip _).2 (div_nonneg (hpos e he).le hsum.le)

/-- Every weight is positive and there is a walker. -/
def Alive (walkers : List (ℝ × X)) : Prop := walkers ≠ [] ∧ ∀ e ∈ walkers, 0 < e.1

theorem attempt_alive (s : Setup X Key) (hlen : ∀ l k o m, (s.move l k o m).length = l.length) (key : Key)
    (state : State X) (h : Alive state.walkers) :
    attemptPop s key state ≠ [] ∧ (∀ e ∈ attemptPop s key state, 0 < e.1) ∧
    (attemptPop s key state).map Prod.fst = attemptWeights s key state ∧
    (attemptPop s key state).map (fun e => (e.2.2, e.1))
      = (attemptEnergies s key state).zip (attemptWeights s key state) := by
  have hl : (s.move (state.walkers.map Prod.snd) (s.split key).2 state.offset state.mixed).length
      = state.walkers.length := by rw [hlen, List.length_map]
  have hw : (attemptWeights s key state).length = state.walkers.length := by
    unfold attemptWeights
    dsimp only
    rw [List.length_zipWith, hl, List.length_map, Nat.min_self]
  have hp : ∀ w ∈ attemptWeights s key state, 0 < w := by
    intro w hwm
    unfold attemptWeights at hwm
    dsimp only at hwm
    obtain ⟨i, hi, rfl⟩ := List.mem_iff_getElem.1 hwm
    rw [List.getElem_zipWith]
    unfold newWeight
    refine mul_pos ?_ (Real.exp_pos _)
    rw [List.getElem_map]
    exact h.2 _ (List.getElem_mem _)
  refine ⟨?_, ?_, ?_, ?_⟩
  · intro h0
    have : (attemptPop s key state).length = 0 := by rw [h0]; rfl
    unfold attemptPop at this
    rw [List.length_zip, List.length_map, hl, hw, Nat.min_self] at this
    exact h.1 (List.length_eq_zero_iff.1 this)
  · intro e he
    exact hp _ (List.of_mem_zip he).1
  · unfold attemptPop
    rw [List.map_fst_zip]
    rw [List.length_map, hl, hw]
  · unfold attemptPop attemptEnergies
    apply List.ext_getElem
    · simp [hl, hw]
    · intro i h1 h2
      simp

/-- What holds of weights and energies after every pass. -/
structure Healthy (s : Setup X Key) (r : Run X Key) : Prop where
  alive : Alive r.state.walkers
  row : ∀ row ∈ rows r.log, 0 < row.total ∧ ∀ lo hi, s.pair = some (lo, hi) → lo ≤ hi →
    (lo ≤ row.before ∧ row.before ≤ hi) ∧ (lo ≤ row.average ∧ row.average ≤ hi)

theorem healthy_step (s : Setup X Key) (hlen : ∀ l k o m, (s.move l k o m).length = l.length)
    (hb : Sound s.branch) (r r' : Run X Key) (h : Healthy s r) (hs : Step s r r') : Healthy s r' := by
  cases hs with
  | raised => exact ⟨h.alive, h.row⟩
  | rejected t key state hi =>
    obtain ⟨rfl, rfl, ho⟩ := rejected_iff hi
    refine ⟨h.alive, ?_⟩
    intro row hrow
    refine h.row row ?_
    simpa [rows] using hrow
  | ok t key state row hi =>
    obtain ⟨p, hbr, h1, h2, h3, h4, h5, h6, h7, h8, h9, h10, h11, h12, -⟩ := ok_iff hi
    obtain ⟨a1, a2, a3, a4⟩ := attempt_alive s hlen r.key r.state h.alive
    obtain ⟨b1, b2⟩ := hb _ _ _ a2 hbr
    have hsum : 0 < ((attemptPop s r.key r.state).map Prod.fst).sum := sum_pos_list _ (by simpa using a1) (by
      intro x hx
      obtain ⟨e, he, rfl⟩ := List.mem_map.1 hx
      exact a2 e he)
    have hp : p ≠ [] := by
      rintro rfl
      rw [← b2] at hsum
      simp at hsum
    refine ⟨⟨?_, ?_⟩, ?_⟩
    · dsimp only; rw [h12]; simpa using hp
    · dsimp only; rw [h12]
      intro e he
      obtain ⟨q, hq, rfl⟩ := List.mem_map.1 he
      exact b1 q hq
    · intro row' hrow
      have hrow' : row' ∈ rows r.log ∨ row' = row := by simpa [rows] using hrow
      rcases hrow' with hold | rfl
      · exact h.row row' hold
      · refine ⟨by rw [h7, b2]; exact hsum, ?_⟩
        intro lo hi' hpair hlh
        rw [h4, h6, hpair, ← a4]
        constructor
        · refine average_between lo hi' hlh _ (by simpa using a1) ?_
          intro e he
          obtain ⟨q, hq, rfl⟩ := List.mem_map.1 he
          exact a2 q hq
        · refine average_between lo hi' hlh _ (by simpa using hp) ?_
          intro e he
          obtain ⟨q, hq, rfl⟩ := List.mem_map.1 he
          exact b1 q hq

/-- **C130.** A run that starts with walkers of positive weights (and a branching step that is sound, such as
the variable-size one) never loses its population and all its weights stay positive; with an energy clip pair
every average energy and every mixed estimator stays between the clips, at all times. -/
theorem c130_healthy (s : Setup X Key) (hlen : ∀ l k o m, (s.move l k o m).length = l.length)
    (hb : Sound s.branch) (hK : 0 < s.K) (numSteps blockSize : ℕ) (period : ℤ) (anchor : Option ℝ) (t0 : ℕ)
    (key : Key) (walkers : List (ℝ × X)) (hne : walkers ≠ []) (hpos : ∀ e ∈ walkers, 0 < e.1)
    (offset target mixed : ℝ) (passes : ℕ) (r : Run X Key)
    (hr : r = loop s numSteps blockSize period anchor passes (fresh t0 key walkers offset target mixed)) :
    r.state.walkers ≠ [] ∧ (∀ e ∈ r.state.walkers, 0 < e.1) ∧
    (∀ row ∈ rows r.log, 0 < row.total) ∧
    ∀ lo hi, s.pair = some (lo, hi) → lo ≤ hi → ∀ row ∈ rows r.log,
      (lo ≤ row.average ∧ row.average ≤ hi) ∧ (lo ≤ row.mixed ∧ row.mixed ≤ hi) := by
  have hh := loop_inv s numSteps blockSize period anchor _ (healthy_step s hlen hb) passes
    (fresh t0 key walkers offset target mixed)
    ⟨⟨hne, hpos⟩, by intro row hrow; simp [fresh, rows] at hrow⟩
  rw [← hr] at hh
  have hi := c130_history s numSteps blockSize period anchor t0 key walkers offset target mixed passes r hr
  refine ⟨hh.alive.1, hh.alive.2, fun row hrow => (hh.row row hrow).1, ?_⟩
  intro lo hi' hpair hlh row hrow
  refine ⟨((hh.row row hrow).2 lo hi' hpair hlh).2, ?_⟩
  obtain ⟨i, hlt, rfl⟩ := List.mem_iff_getElem.1 hrow
  obtain ⟨_, g, _⟩ := hi.2.2.2.2 i _ (List.getElem?_eq_getElem hlt)
  rw [g]
  refine DmcEnergy.Props.c86_between s.K s.T hK _ i lo hi' ?_ ?_
  · intro j hj
    have hjl : j < (rows r.log).length := by unfold window at hj; rw [Finset.mem_Ico] at hj; omega
    unfold callOf
    rw [List.getElem?_eq_getElem hjl]
    exact (hh.row _ (List.getElem_mem hjl)).1
  · intro j hj
    have hjl : j < (rows r.log).length := by unfold window at hj; rw [Finset.mem_Ico] at hj; omega
    unfold callOf
    rw [List.getElem?_eq_getElem hjl]
    exact ((hh.row _ (List.getElem_mem hjl)).2 lo hi' hpair hlh).2

/-! ## A rejected attempt that changes the effective time step -/

/-- One walker; with the first key its move fails and its energy is absurd, later it is accepted. -/
noncomputable def sample : Setup Unit ℕ where
  timeStep := 1
  ebye := false
  move l k _ _ := l.map fun _ => ⟨(), if k = 0 then 10 else -1, 0, 1, if k = 0 then 0 else 1, 1⟩
  branch _ l := some l
  pair := none
  interval := 1
  amplitude := 1
  threshold := 1 / 2
  K := 10
  T := 10
  split k := (k + 1, k)

/-- **C130 (finding).** The only iteration that counts accepts everything, yet its effective time step is
half the time step, because the rejected attempt before it accepted nothing. -/
theorem c130_rejected_counts :
    (rows (loop sample 5 1 (-1) none 2 (fresh 0 0 [(1, ())] (-1) 1 (-1))).log).map Row.eff = [1 / 2] ∧
    (rows (loop sample 5 1 (-1) none 1 (fresh 0 2 [(1, ())] (-1) 1 (-1))).log).map Row.eff = [1] := by
  have hl : Real.exp (Real.log (1 / 2)) = 1 / 2 := Real.exp_log (by norm_num)
  have n0 : ∀ e : ℝ, averageEnergy none [(e, 1)] = e := by intro e; simp [averageEnergy, clipPair]
  have i0 : iteration sample 0 0 ⟨[(1, ())], -1, 1, -1, Calc.init, TStep.init⟩
      = .rejected 0 2 ⟨[(1, ())], -1, 1, -1, Calc.init, ⟨1, 1, 0⟩⟩ := by
    have e1 : attemptStep sample 0 ⟨[(1, ())], -1, 1, -1, Calc.init, TStep.init⟩ = ⟨1, 1, 0⟩ := by
      simp [attemptStep, sample, TStep.update, TStep.init, walks, aggMean]
    have e2 : attemptWeights sample 0 ⟨[(1, ())], -1, 1, -1, Calc.init, TStep.init⟩ = [1] := by
      simp [attemptWeights, sample, newWeight]
    have e3 : attemptEnergies sample 0 ⟨[(1, ())], -1, 1, -1, Calc.init, TStep.init⟩ = [10] := by
      simp [attemptEnergies, sample]
    rw [iteration_eq]
    dsimp only
    rw [e1, e2, e3, if_pos]
    · rfl
    · show isOutlier (1 / 2) (averageEnergy none [(10, 1)]) (-1)
      rw [n0]
      unfold isOutlier
      norm_num
  have i1 : ∀ ts : TStep, ∃ st row, iteration sample 0 2 ⟨[(1, ())], -1, 1, -1, Calc.init, ts⟩
      = .succeeded 1 4 st row ∧ row.eff = (ts.update [⟨1, 1, 1⟩]).run 1 := by
    intro ts
    have e1 : attemptStep sample 2 ⟨[(1, ())], -1, 1, -1, Calc.init, ts⟩ = ts.update [⟨1, 1, 1⟩] := by
      simp [attemptStep, sample, walks]
    have e2 : attemptWeights sample 2 ⟨[(1, ())], -1, 1, -1, Calc.init, ts⟩ = [1] := by
      simp [attemptWeights, sample, newWeight]
    have e3 : attemptEnergies sample 2 ⟨[(1, ())], -1, 1, -1, Calc.init, ts⟩ = [-1] := by
      simp [attemptEnergies, sample]
    rw [iteration_eq]
    dsimp only
    rw [e1, e2, e3, if_neg]
    · exact ⟨_, _, rfl, rfl⟩
    · show ¬ isOutlier (1 / 2) (averageEnergy none [(-1, 1)]) (-1)
      rw [n0]
      unfold isOutlier
      norm_num
  constructor
  · obtain ⟨st, row, h1, h2⟩ := i1 ⟨1, 1, 0⟩
    unfold loop
    rw [if_pos ⟨by simp [fresh], rfl⟩]
    dsimp only
    rw [show iteration sample (fresh 0 0 [(1, ())] (-1) 1 (-1)).t (fresh 0 0 [(1, ())] (-1) 1 (-1)).key
      (fresh 0 0 [(1, ())] (-1) 1 (-1)).state = _ from i0]
    dsimp only
    unfold loop
    rw [if_pos ⟨by simp, rfl⟩]
    dsimp only
    rw [h1]
    dsimp only
    unfold loop
    have hrun : row.eff = 1 / 2 := by
      rw [h2]
      have : TStep.update ⟨1, 1, 0⟩ [⟨1, 1, 1⟩] = ⟨2, 1, 1 / 2⟩ := by
        simp [TStep.update, aggMean]; norm_num
      rw [this]
      unfold TStep.run
      norm_num [hl]
    simp [rows, fresh, hrun]
  · obtain ⟨st, row, h1, h2⟩ := i1 TStep.init
    unfold loop
    rw [if_pos ⟨by simp [fresh], rfl⟩]
    dsimp only
    rw [show iteration sample (fresh 0 2 [(1, ())] (-1) 1 (-1)).t (fresh 0 2 [(1, ())] (-1) 1 (-1)).key
      (fresh 0 2 [(1, ())] (-1) 1 (-1)).state = _ from h1]
    dsimp only
    unfold loop
    have hrun : row.eff = 1 := by
      rw [h2]
      have : TStep.update TStep.init [⟨1, 1, 1⟩] = ⟨1, 1, 1⟩ := by
        simp [TStep.update, aggMean, TStep.init]
      rw [this]
      unfold TStep.run
      norm_num
    simp [rows, fresh, hrun]

/-- The same moves with the variable-size branching and energies clipped to `[-5, 5]`. -/
noncomputable def clipped : Setup Unit ℕ where
  timeStep := 1
  ebye := false
  move := sample.move
  branch := varBranch (3 / 10) 2 fun k n => 1 / ((k : ℝ) + n + 2)
  pair := some (-5, 5)
  interval := 1
  amplitude := 1
  threshold := 1 / 2
  K := 10
  T := 10
  split k := (k + 1, k)

/-- Three walkers: nothing leaves the clips, although one move in the run claims the energy 10. -/
example (passes : ℕ) (r : Run Unit ℕ)
    (hr : r = loop clipped 100 10 (-1) none passes (fresh 0 0 [(1, ()), (1, ()), (1, ())] (-1) 3 (-1))) :
    ∀ row ∈ rows r.log, -5 ≤ row.mixed ∧ row.mixed ≤ 5 := by
  have hb : Sound clipped.branch := c130_branch (Key := ℕ) (3 / 10) 2 fun k n => 1 / ((k : ℝ) + n + 2)
  have hlen : ∀ l k o m, (clipped.move l k o m).length = l.length := by
    intro l k o m
    show (List.map _ l).length = _
    rw [List.length_map]
  have hK : 0 < clipped.K := by show 0 < 10; norm_num
  have h := c130_healthy clipped hlen hb hK 100 10 (-1) none 0 0 [(1, ()), (1, ()), (1, ())] (by simp)
    (by simp) (-1) 3 (-1) passes r hr
  exact fun row hrow => (h.2.2.2 (-5) 5 rfl (by norm_num) row hrow).2

end Jaqmc.DmcRun.Props
