import Verif.Spec.TrainStep
import Mathlib.Tactic.Tauto
/-! # C128 -/

namespace Jaqmc.TrainStep.Props
open Jaqmc.TrainStep Jaqmc.TrainStep.Spec
variable {K P D S E O V R : Type}

theorem computeStep_some (c : Parts K P D S E O V R) {s s' : State P D S E O} {k : K} {row : Dict V}
    (h : computeStep c s k = some (row, s')) : Trained c s row s' := by
  unfold computeStep at h
  dsimp only at h
  split at h
  · cases h
  · rename_i grads hg
    injection h with h
    injection h with h1 h2
    subst h2
    subst h1
    refine ⟨_, _, grads, _, _, _, ⟨(c.split3 k).1, rfl⟩, rfl, hg, rfl, rfl, ?_, ?_, ?_⟩
    · intro name v hv; unfold merge; rw [hv]; rfl
    · intro name hn hne; unfold merge; rw [hn]; simp [without, hne]
    · intro hn; unfold merge; rw [hn]; simp [without]

theorem evalStep_spec (c : Parts K P D S E O V R) (s : State P D S E O) (k : K) :
    Evaluated c s (evalStep c s k).1 (evalStep c s k).2 :=
  ⟨_, (c.split2 k).2, ⟨(c.split2 k).1, rfl⟩, rfl, rfl, rfl⟩

theorem burnInLoop_spec (c : Parts K P D S E O V R) (n : Nat) :
    ∀ (s : State P D S E O) (k : K), ∃ (d : Nat → D) (σ : Nat → S),
      d 0 = s.data ∧ σ 0 = s.sampler ∧
      (∀ i < n, ∃ st, Sampled c s.params (d i) (σ i) (d (i + 1)) (σ (i + 1)) st) ∧
      (burnInLoop c n s k).1 = { s with data := d n, sampler := σ n } := by
  induction n with
  | zero => intro s k; exact ⟨fun _ => s.data, fun _ => s.sampler, rfl, rfl, by simp, rfl⟩
  | succ n ih =>
    intro s k
    obtain ⟨d, σ, h0, h0', hs, he⟩ := ih
      { s with data := (c.sample s.params s.data s.sampler (c.split2 k).2).1,
               sampler := (c.sample s.params s.data s.sampler (c.split2 k).2).2.2 } (c.split2 k).1
    refine ⟨fun i => if i = 0 then s.data else d (i - 1), fun i => if i = 0 then s.sampler else σ (i - 1),
      by simp, by simp, ?_, ?_⟩
    · intro i hi
      cases i with
      | zero =>
        refine ⟨(c.sample s.params s.data s.sampler (c.split2 k).2).2.1, (c.split2 k).2, ?_⟩
        simp [h0, h0']
      | succ i =>
        have := hs i (by omega)
        simpa using this
    · show (burnInLoop c n _ _).1 = _
      rw [he]
      simp

/-- C128: burn-in moves the walkers by exactly the configured number of sampling steps (none if it is
not positive), all with the initial parameters, and touches nothing but walkers and sampler states. -/
theorem c128_burn_in (c : Parts K P D S E O V R) (steps : Int) (s : State P D S E O) (k : K) :
    ∃ (d : Nat → D) (σ : Nat → S), d 0 = s.data ∧ σ 0 = s.sampler ∧
      (∀ i < steps.toNat, ∃ st, Sampled c s.params (d i) (σ i) (d (i + 1)) (σ (i + 1)) st) ∧
      (burnIn c steps s k).1 = { s with data := d steps.toNat, sampler := σ steps.toNat } := by
  unfold burnIn
  by_cases h : steps ≤ 0
  · rw [if_pos h, Int.toNat_of_nonpos h]
    exact ⟨fun _ => s.data, fun _ => s.sampler, rfl, rfl, by simp, rfl⟩
  · rw [if_neg h]; exact burnInLoop_spec c _ s k

/-- The rows of a run and how it ended, from the state `s0` before step `start`. -/
structure History (c : Parts K P D S E O V R) (nan : Dict V → Bool) (start n : Nat)
    (s0 : State P D S E O) (rows : List (Nat × Dict V)) (ending : Ending (State P D S E O)) : Prop where
  /-- at most `n` rows, numbered consecutively -/
  count : rows.length ≤ n
  numbers : ∀ i (h : i < rows.length), rows[i].1 = start + i
  /-- the states between them are steps of training -/
  states : ∃ st : Nat → State P D S E O, st 0 = s0 ∧
    (∀ i (h : i < rows.length), Trained c (st i) rows[i].2 (st (i + 1))) ∧
    match ending with
    | .done s => rows.length = n ∧ s = st n ∧ ∀ r ∈ rows, nan r.2 = false
    | .abort t s => rows ≠ [] ∧ t + 1 = start + rows.length ∧ s = st rows.length ∧
        (∀ i (h : i < rows.length), nan rows[i].2 = true ↔ i + 1 = rows.length)
    | .error => rows.length < n ∧ ∀ r ∈ rows, nan r.2 = false

theorem mainLoop_history (c : Parts K P D S E O V R) (nan : Dict V → Bool) (n : Nat) :
    ∀ start s k, History c nan start n s (mainLoop c nan n start s k).1 (mainLoop c nan n start s k).2 := by
  induction n with
  | zero =>
    intro start s k
    exact ⟨Nat.le_refl _, fun i h => by simp [mainLoop] at h,
      ⟨fun _ => s, rfl, fun i h => by simp [mainLoop] at h, rfl, rfl, by simp [mainLoop]⟩⟩
  | succ n ih =>
    intro start s k
    cases hc : computeStep c s (c.split2 k).2 with
    | none =>
      have e : mainLoop c nan (n + 1) start s k = ([], .error) := by
        simp only [mainLoop]; rw [hc]
      rw [e]
      exact ⟨by simp, fun i h => by simp at h,
        ⟨fun _ => s, rfl, fun i h => by simp at h, by simp⟩⟩
    | some q =>
      obtain ⟨stats, s'⟩ := q
      have ht := computeStep_some c hc
      by_cases hn : nan stats = true
      · have e : mainLoop c nan (n + 1) start s k = ([(start, stats)], .abort start s') := by
          simp only [mainLoop]; rw [hc]; simp [hn]
        rw [e]
        refine ⟨by simp, fun i h => by simp at h; simp [h], ⟨fun i => if i = 0 then s else s', rfl, ?_, ?_⟩⟩
        · intro i h
          simp at h; subst h
          simpa using ht
        · refine ⟨by simp, by simp, by simp, fun i h => ?_⟩
          simp at h; subst h
          simp [hn]
      · have e : mainLoop c nan (n + 1) start s k =
            ((start, stats) :: (mainLoop c nan n (start + 1) s' (c.split2 k).1).1,
             (mainLoop c nan n (start + 1) s' (c.split2 k).1).2) := by
          simp only [mainLoop]; rw [hc]; simp [hn]
        rw [e]
        obtain ⟨h1, h2, st, h3, h4, h5⟩ := ih (start + 1) s' (c.split2 k).1
        generalize mainLoop c nan n (start + 1) s' (c.split2 k).1 = r at *
        obtain ⟨rows, ending⟩ := r
        simp only at h1 h2 h4 h5 ⊢
        have hn' : nan stats = false := by simpa using hn
        refine ⟨by simp; omega, ?_, ⟨fun i => if i = 0 then s else st (i - 1), rfl, ?_, ?_⟩⟩
        · intro i h
          cases i with
          | zero => rfl
          | succ i =>
            simp only [List.getElem_cons_succ]
            rw [h2 i (by simpa using h)]; omega
        · intro i h
          cases i with
          | zero => simpa [h3] using ht
          | succ i => simpa using h4 i (by simpa using h)
        · cases ending with
          | done s => obtain ⟨a, b, d⟩ := h5; exact ⟨by simp [a], by simp [b], by simpa [hn'] using d⟩
          | error => obtain ⟨a, d⟩ := h5; exact ⟨by simp; omega, by simpa [hn'] using d⟩
          | abort t s =>
            obtain ⟨a, b, d, f⟩ := h5
            refine ⟨by simp, by simp; omega, ?_, fun i h => ?_⟩
            · simpa using d
            · cases i with
              | zero =>
                have : rows.length ≠ 0 := by
                  intro e; exact a (List.eq_nil_of_length_eq_zero e)
                simp [hn']; exact fun e => a e
              | succ i =>
                simpa using f i (by simpa using h)

/-- C128: a training run, fresh or resumed at `initialStep`.  It starts from the given state, after
burn-in if it is fresh; writes one row per step, consecutively; each row is estimated with the parameters
with which its walkers were sampled, and the parameters of the next step follow from the gradient
estimated there; it goes on to the last iteration unless a row contains a monitored NaN, in which case it
ends right after that row, or no gradient is reported. -/
theorem c128_training (c : Parts K P D S E O V R) (nan : Dict V → Bool) (burn : Int)
    (iterations initialStep : Nat) (s : State P D S E O) (k : K) :
    History c nan initialStep (iterations - initialStep)
      (if initialStep = 0 then (burnIn c burn s k).1 else s)
      (trainLoop c nan burn iterations initialStep s k).1
      (trainLoop c nan burn iterations initialStep s k).2 := by
  unfold trainLoop
  by_cases h : initialStep = 0
  · rw [if_pos h, if_pos h]; exact mainLoop_history c nan _ _ _ _
  · rw [if_neg h, if_neg h]; exact mainLoop_history c nan _ _ _ _

/-- C128: if the estimators always report a gradient the run never fails. -/
theorem c128_no_error (c : Parts K P D S E O V R) (hg : ∀ r e, (c.finalize r e "grads").isSome)
    (nan : Dict V → Bool) (burn : Int) (iterations initialStep : Nat) (s : State P D S E O) (k : K) :
    (trainLoop c nan burn iterations initialStep s k).2 ≠ .error := by
  have key : ∀ n start s k, (mainLoop c nan n start s k).2 ≠ .error := by
    intro n
    induction n with
    | zero => intro start s k; simp [mainLoop]
    | succ n ih =>
      intro start s k
      have hs : ∃ q, computeStep c s (c.split2 k).2 = some q := by
        unfold computeStep
        dsimp only
        split
        · rename_i h
          have := hg (c.evaluate s.params
            (c.sample s.params s.data s.sampler (c.split3 (c.split2 k).2).1).1 s.estimator
            (c.split3 (c.split2 k).2).2.1).1 (c.evaluate s.params
            (c.sample s.params s.data s.sampler (c.split3 (c.split2 k).2).1).1 s.estimator
            (c.split3 (c.split2 k).2).2.1).2
          rw [h] at this; simp at this
        · exact ⟨_, rfl⟩
      obtain ⟨⟨stats, s'⟩, hq⟩ := hs
      simp only [mainLoop]; rw [hq]
      dsimp only
      split
      · simp
      · exact ih _ _ _
  unfold trainLoop
  exact key _ _ _ _

/-- C128: an evaluation writes one row for each remaining iteration, estimated for walkers sampled with
the parameters it was given, which never change. -/
theorem c128_evaluation (c : Parts K P D S E O V R) (burn : Int) (iterations initialStep : Nat)
    (s : State P D S E O) (k : K) :
    let out := evalLoop c burn iterations initialStep s k
    out.1.map Prod.fst = (List.range (iterations - initialStep)).map (initialStep + ·) ∧
    ∃ st : Nat → State P D S E O,
      st 0 = (if initialStep = 0 then (burnIn c burn s k).1 else s) ∧
      (∀ i (h : i < out.1.length), Evaluated c (st i) out.1[i].2 (st (i + 1))) ∧
      (∀ i ≤ out.1.length, (st i).params = s.params) ∧ out.2 = st out.1.length := by
  have key : ∀ n start s k, (evalMain c n start s k).1.map Prod.fst = (List.range n).map (start + ·) ∧
      ∃ st : Nat → State P D S E O, st 0 = s ∧
        (∀ i (h : i < (evalMain c n start s k).1.length),
          Evaluated c (st i) ((evalMain c n start s k).1[i]).2 (st (i + 1))) ∧
        (∀ i ≤ (evalMain c n start s k).1.length, (st i).params = s.params) ∧
        (evalMain c n start s k).2 = st (evalMain c n start s k).1.length := by
    intro n
    induction n with
    | zero =>
      intro start s k
      exact ⟨rfl, fun _ => s, rfl, fun i h => by simp [evalMain] at h, fun _ _ => rfl, rfl⟩
    | succ n ih =>
      intro start s k
      have e : evalMain c (n + 1) start s k =
          ((start, (evalStep c s (c.split2 k).2).1) ::
            (evalMain c n (start + 1) (evalStep c s (c.split2 k).2).2 (c.split2 k).1).1,
           (evalMain c n (start + 1) (evalStep c s (c.split2 k).2).2 (c.split2 k).1).2) := rfl
      rw [e]
      obtain ⟨h1, st, h2, h3, h4, h5⟩ := ih (start + 1) (evalStep c s (c.split2 k).2).2 (c.split2 k).1
      have hstep := evalStep_spec c s (c.split2 k).2
      generalize evalMain c n (start + 1) (evalStep c s (c.split2 k).2).2 (c.split2 k).1 = r at *
      obtain ⟨rows, fin⟩ := r
      simp only at h1 h3 h4 h5 ⊢
      refine ⟨?_, fun i => if i = 0 then s else st (i - 1), rfl, ?_, ?_, by simp [h5]⟩
      · rw [List.map_cons, h1, List.range_succ_eq_map, List.map_cons, List.map_map]
        simp only [Nat.add_zero, List.cons.injEq, true_and]
        apply List.map_congr_left
        intro i _
        simp; omega
      · intro i h
        cases i with
        | zero => simpa [h2] using hstep
        | succ i => simpa using h3 i (by simpa using h)
      · intro i hi
        cases i with
        | zero => rfl
        | succ i =>
          have := h4 i (by simpa using hi)
          simp only [Nat.add_sub_cancel, Nat.succ_ne_zero, if_false]
          rw [this]
          obtain ⟨_, _, _, _, hp, _⟩ := hstep
          exact hp
  intro out
  have hb : ((if initialStep = 0 then burnIn c burn s k else (s, k)).1).params = s.params := by
    split
    · obtain ⟨d, σ, _, _, _, hb⟩ := c128_burn_in c burn s k
      rw [hb]
    · rfl
  have := key (iterations - initialStep) initialStep
    (if initialStep = 0 then burnIn c burn s k else (s, k)).1
    (if initialStep = 0 then burnIn c burn s k else (s, k)).2
  rw [hb] at this
  obtain ⟨h1, st, h2, h3⟩ := this
  refine ⟨h1, st, ?_, h3⟩
  rw [h2]
  split <;> rfl

/-! ### NaN monitoring -/

/-- Some statistic whose name is in `names` has a NaN in its real part. -/
def SomeNaN (reNaN : V → Bool) (present : List String) (stats : Dict V) (monitored : String → Prop) : Prop :=
  ∃ name ∈ present, monitored name ∧ ∃ v, stats name = some v ∧ reNaN v = true

theorem entry_true (reNaN : V → Bool) (stats : Dict V) (k : String) :
    ((stats k).map reNaN).getD false = true ↔ ∃ v, stats k = some v ∧ reNaN v = true := by
  cases stats k <;> simp

/-- C128: `stop_on_nan = True` monitors every statistic, `False` none, and a string of names joined by
commas exactly these names. -/
theorem c128_monitor (reNaN : V → Bool) (present : List String) (stats : Dict V) (names : List (List Char))
    (hn : names ≠ []) (hne : [','].intercalate names ≠ []) (hc : ∀ l ∈ names, ',' ∉ l) :
    (hasNan .all reNaN present stats = true ↔ SomeNaN reNaN present stats fun _ => True) ∧
    hasNan .never reNaN present stats = false ∧
    (hasNan (.names ([','].intercalate names)) reNaN present stats = true ↔
      SomeNaN reNaN present stats fun name => name.toList ∈ names) := by
  refine ⟨?_, rfl, ?_⟩
  · simp only [hasNan, List.any_eq_true, entry_true, SomeNaN, true_and]
  · have hs : ([','].intercalate names).splitOn ',' = names := List.splitOn_intercalate _ hc hn
    generalize [','].intercalate names = s at *
    cases s with
    | nil => exact absurd rfl hne
    | cons a s =>
      simp only [hasNan, List.any_eq_true, Bool.and_eq_true, entry_true, SomeNaN]
      rw [hs]
      simp only [List.contains_iff_mem]

/-- C128 fails for a space after the comma: of `"a, b"` only `a` is monitored (and a statistic called
`" b"`). -/
theorem c128_space_ignored (reNaN : V → Bool) (present : List String) (stats : Dict V) (a b : List Char)
    (ha : ',' ∉ a) (hb : ',' ∉ b) :
    hasNan (.names (a ++ [',', ' '] ++ b)) reNaN present stats = true ↔
      SomeNaN reNaN present stats fun name => name.toList = a ∨ name.toList = ' ' :: b := by
  have hnames : a ++ [',', ' '] ++ b = [','].intercalate [a, ' ' :: b] := by
    simp [List.intercalate]
  rw [hnames]
  have := (c128_monitor reNaN present stats [a, ' ' :: b] (by simp) (by simp [List.intercalate])
    (by simp [ha, hb])).2.2
  rw [this]
  simp [SomeNaN]

/-- C128 fails for NaNs in imaginary parts: only real parts are looked at. -/
theorem c128_imaginary_ignored (reNaN : V → Bool) (stop : StopOn) (present : List String) (stats : Dict V)
    (h : ∀ k v, stats k = some v → reNaN v = false) : hasNan stop reNaN present stats = false := by
  have key : ∀ k, ((stats k).map reNaN).getD false = false := by
    intro k
    cases hk : stats k with
    | none => rfl
    | some v => simpa using h k v hk
  cases stop with
  | all => simp [hasNan, key]
  | never => rfl
  | names s => cases s <;> simp [hasNan, key]

/-- A toy run: the parameter is a number or broken (`none`), the gradient is the parameter, walkers count
sampling steps. -/
def toy (gradient : Option Nat → Option Nat) :
    Parts Unit (Option Nat) Nat Unit Unit Unit (Option Nat) (Option Nat × Option Nat) where
  split2 _ := ((), ())
  split3 _ := ((), (), ())
  sample _ d _ _ := (d + 1, fun n => if n = "pmove" then some (some 1) else none, ())
  evaluate θ _ _ _ := ((θ, gradient θ), ())
  finalize r _ := fun n => if n = "grads" then some r.2 else if n = "loss" then some r.1 else none
  update g _ _ _ _ := (g, ())
  apply θ u := match θ, u with
    | some a, some b => some (a - b)
    | _, _ => none

/-- C128 fails for the gradient: it is removed from the statistics before they are checked, so that even
`stop_on_nan = True` lets a NaN gradient destroy the parameters; the run ends one step later, when the
loss is NaN. -/
theorem c128_gradient_ignored :
    let c := toy fun _ => none
    let nan := hasNan .all (fun v : Option Nat => v.isNone) ["loss", "pmove"]
    (∃ row s', computeStep c ⟨some 5, 0, (), (), ()⟩ () = some (row, s') ∧ nan row = false ∧
      s'.params = none) ∧
    ∃ rows s', trainLoop c nan 3 10 0 ⟨some 5, 0, (), (), ()⟩ () = (rows, .abort 1 s') ∧
      rows.length = 2 := by
  refine ⟨⟨_, _, rfl, ?_, rfl⟩, ⟨_, _, rfl, rfl⟩⟩
  decide +kernel

/-- A run without NaN: three burn-in steps, four iterations; the last state has seen seven sampling
steps. -/
example : ∃ rows, trainLoop (toy fun _ => some 1)
    (hasNan .all (fun v : Option Nat => v.isNone) ["loss", "pmove"]) 3 4 0 ⟨some 9, 0, (), (), ()⟩ ()
      = (rows, .done ⟨some 5, 7, (), (), ()⟩) ∧ rows.length = 4 := ⟨_, rfl, rfl⟩

example : hasNan (V := Bool) (.names "loss,pmove".toList) id ["pmove", "x"] (fun n => some (n = "pmove")) = true ∧
    hasNan (V := Bool) (.names "loss, pmove".toList) id ["pmove", "x"] (fun n => some (n = "pmove")) = false := by
  decide +kernel

end Jaqmc.TrainStep.Props
