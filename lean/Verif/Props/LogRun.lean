import Verif.Model.LogRun
import Mathlib.Data.List.Dedup
import Mathlib.Tactic.Ring
import Mathlib.Tactic.NormNum
import Mathlib.Algebra.Order.Ring.Rat
import Mathlib.Algebra.Field.Rat
/-! # C132: what a run shows in its log -/

namespace Jaqmc.LogRun.Props
open Jaqmc.LogRun

variable {V : Type}

/-- The format of a field: its own, or four decimals. -/
def formatOf (f : Field) : String :=
  match f.fmt with
  | none => ".4f"
  | some s => if s = "" then ".4f" else s

/-- The writes that show something. -/
def logged (interval : Nat) (ws : List (Nat × List (String × V))) : List (Nat × List (String × V)) :=
  ws.filter fun w => w.1 % interval = 0

/-- A field of the list is missing from a write. -/
def Missing (ofStep : Nat → V) (fields : List Field) (w : Nat × List (String × V)) (key : String) : Prop :=
  (∃ f ∈ fields, f.key = key) ∧ (w.2 ++ [("step", ofStep w.1)]).lookup key = none

/-- The value of a field: a statistic of that name, or else the step number. -/
theorem value_eq (ofStep : Nat → V) (step : Nat) (stats : List (String × V)) (key : String) :
    value ofStep step stats key = (stats ++ [("step", ofStep step)]).lookup key := by
  unfold value
  rw [List.lookup_append]
  cases stats.lookup key with
  | some v => rfl
  | none =>
    by_cases h : key = "step"
    · subst h; simp [List.lookup]
    · have : (key == "step") = false := by simpa using h
      simp [List.lookup, h, this]

theorem write_warned (ofStep : Nat → V) (interval : Nat) (fields : List Field) (warned : List String)
    (w : Nat × List (String × V)) (hw : w.1 % interval = 0) :
    ∃ s, write ofStep interval fields warned w.1 w.2 = (warned ++ s.warned, some s) ∧ s.step = w.1 ∧
      s.parts = fields.filterMap (fun f => (value ofStep w.1 w.2 f.key).map fun v =>
        Part.mk f.displayName v (formatOf f)) ∧
      s.warned.Nodup ∧ ∀ k, k ∈ s.warned ↔ Missing ofStep fields w k ∧ k ∉ warned := by
  have e : write ofStep interval fields warned w.1 w.2 =
      (warned ++ (fields.filterMap fun f =>
        if (value ofStep w.1 w.2 f.key).isSome then none
        else if f.key ∈ warned then none else some f.key).dedup,
      some ⟨w.1, fields.filterMap (fun f => (value ofStep w.1 w.2 f.key).map fun v =>
        Part.mk f.displayName v (formatOf f)), (fields.filterMap fun f =>
        if (value ofStep w.1 w.2 f.key).isSome then none
        else if f.key ∈ warned then none else some f.key).dedup⟩) := by
    unfold write; rw [if_neg (by simpa using hw)]; rfl
  rw [e]
  refine ⟨⟨w.1, fields.filterMap (fun f => (value ofStep w.1 w.2 f.key).map fun v =>
        Part.mk f.displayName v (formatOf f)), (fields.filterMap fun f =>
        if (value ofStep w.1 w.2 f.key).isSome then none
        else if f.key ∈ warned then none else some f.key).dedup⟩, rfl, rfl, rfl, ?_, ?_⟩
  · exact List.nodup_dedup _
  intro k
  dsimp only
  rw [List.mem_dedup, List.mem_filterMap]
  unfold Missing
  rw [← value_eq]
  constructor
  · rintro ⟨f, hf, h⟩
    by_cases h1 : (value ofStep w.1 w.2 f.key).isSome = true
    · rw [if_pos h1] at h; cases h
    · rw [if_neg h1] at h
      by_cases h2 : f.key ∈ warned
      · rw [if_pos h2] at h; cases h
      · rw [if_neg h2] at h
        cases h
        exact ⟨⟨⟨f, hf, rfl⟩, by simpa using h1⟩, h2⟩
  · rintro ⟨⟨⟨f, hf, rfl⟩, h1⟩, h2⟩
    exact ⟨f, hf, by rw [if_neg (by simp [h1]), if_neg h2]⟩

theorem writes_skip (ofStep : Nat → V) (interval : Nat) (fields : List Field) (warned : List String)
    (w : Nat × List (String × V)) (rest : List (Nat × List (String × V))) (hw : ¬ w.1 % interval = 0) :
    writes ofStep interval fields warned (w :: rest) = writes ofStep interval fields warned rest := by
  conv_lhs => unfold writes
  unfold write
  rw [if_pos hw]
  rfl

/-- **C132.** Exactly the steps divisible by the interval are shown, in order, each with its step number and
with those of the configured fields that it has, in the configured order, under their display names. -/
theorem c132_lines (ofStep : Nat → V) (interval : Nat) (fields : List Field)
    (ws : List (Nat × List (String × V))) : ∀ warned,
    (writes ofStep interval fields warned ws).2.map (fun s => (s.step, s.parts))
      = (logged interval ws).map fun w => (w.1, fields.filterMap fun f =>
        ((w.2 ++ [("step", ofStep w.1)]).lookup f.key).map fun v => Part.mk f.displayName v (formatOf f)) := by
  simp only [← value_eq]
  induction ws with
  | nil => intro warned; rfl
  | cons w rest ih =>
    intro warned
    by_cases hw : w.1 % interval = 0
    · obtain ⟨s, h1, h2, h3, _⟩ := write_warned ofStep interval fields warned w hw
      have e : logged interval (w :: rest) = w :: logged interval rest := by simp [logged, hw]
      rw [e]
      unfold writes
      dsimp only
      rw [h1]
      simp only [Option.toList_some, List.cons_append, List.nil_append, List.map_cons, ih, h2, h3]
    · rw [writes_skip _ _ _ _ _ _ hw, ih]
      simp [logged, hw]

theorem warned_spec (ofStep : Nat → V) (interval : Nat) (fields : List Field)
    (ws : List (Nat × List (String × V))) : ∀ warned,
    (writes ofStep interval fields warned ws).2.length = (logged interval ws).length ∧
    ∀ i (hi : i < (writes ofStep interval fields warned ws).2.length) (hi' : i < (logged interval ws).length) k,
      k ∈ ((writes ofStep interval fields warned ws).2[i]).warned ↔
        Missing ofStep fields (logged interval ws)[i] k ∧ k ∉ warned ∧
        ∀ j (hj : j < i), ¬ Missing ofStep fields ((logged interval ws)[j]'(Nat.lt_trans hj hi')) k := by
  induction ws with
  | nil => intro warned; exact ⟨rfl, fun i hi => by simp [writes] at hi⟩
  | cons w rest ih =>
    intro warned
    by_cases hw : w.1 % interval = 0
    · obtain ⟨s, h1, h2, h3, h4, h5⟩ := write_warned ofStep interval fields warned w hw
      have e : logged interval (w :: rest) = w :: logged interval rest := by simp [logged, hw]
      have ew : (writes ofStep interval fields warned (w :: rest)).2
          = s :: (writes ofStep interval fields (warned ++ s.warned) rest).2 := by
        conv_lhs => unfold writes
        dsimp only
        rw [h1]
        rfl
      obtain ⟨g1, g2⟩ := ih (warned ++ s.warned)
      simp only [ew, e]
      refine ⟨by simp [g1], ?_⟩
      intro i hi hi' k
      cases i with
      | zero =>
        simp only [List.getElem_cons_zero]
        rw [h5]
        constructor
        · rintro ⟨a, b⟩; exact ⟨a, b, fun j hj => absurd hj (by omega)⟩
        · rintro ⟨a, b, _⟩; exact ⟨a, b⟩
      | succ i =>
        simp only [List.getElem_cons_succ]
        rw [g2 i (by simpa using hi) (by simpa using hi') k, List.mem_append, h5]
        constructor
        · rintro ⟨a, b, c⟩
          refine ⟨a, fun hk => b (.inl hk), ?_⟩
          intro j hj
          cases j with
          | zero =>
            intro hm
            exact b (.inr ⟨hm, fun hk => b (.inl hk)⟩)
          | succ j => exact c j (by omega)
        · rintro ⟨a, b, c⟩
          refine ⟨a, ?_, ?_⟩
          · rintro (hk | hk)
            · exact b hk
            · exact c 0 (by omega) hk.1
          · intro j hj
            exact c (j + 1) (by omega)
    · rw [writes_skip _ _ _ _ _ _ hw]
      have e : logged interval (w :: rest) = logged interval rest := by simp [logged, hw]
      simp only [e]
      exact ih warned

/-- **C132.** A line warns about a configured field exactly if the field is missing there and was missing in
no line before: every missing field is reported once, and at once. -/
theorem c132_warnings (ofStep : Nat → V) (interval : Nat) (fields : List Field)
    (ws : List (Nat × List (String × V))) :
    (writes ofStep interval fields [] ws).2.length = (logged interval ws).length ∧
    ∀ i (hi : i < (writes ofStep interval fields [] ws).2.length) (hi' : i < (logged interval ws).length) k,
      k ∈ ((writes ofStep interval fields [] ws).2[i]).warned ↔
        Missing ofStep fields (logged interval ws)[i] k ∧
        ∀ j (hj : j < i), ¬ Missing ofStep fields ((logged interval ws)[j]'(Nat.lt_trans hj hi')) k := by
  obtain ⟨h1, h2⟩ := warned_spec ofStep interval fields ws []
  refine ⟨h1, fun i hi hi' k => ?_⟩
  rw [h2 i hi hi' k]
  simp

/-- The duration of each step, from the start time and the times at which steps ended. -/
def durations : Rat → List Rat → List Rat
  | _, [] => []
  | t, x :: xs => (x - t) :: durations x xs

theorem getLastD_cons' (x t : Rat) (xs : List Rat) : (x :: xs).getLastD t = xs.getLastD x := by
  cases xs with
  | nil => rfl
  | cons y ys => rw [List.getLastD_cons]

theorem durations_sum (t : Rat) (xs : List Rat) : (durations t xs).sum = xs.getLastD t - t := by
  induction xs generalizing t with
  | nil => simp [durations]
  | cons x xs ih =>
    rw [durations, List.sum_cons, ih x]
    rw [getLastD_cons']; ring

theorem ticks_fold (w : Nat) (t : Tracker) (xs : List Rat) (hw : t.warmup = w) :
    (xs.foldl Tracker.tick t).warmup = w ∧ (xs.foldl Tracker.tick t).ticks = t.ticks + xs.length ∧
    (xs.foldl Tracker.tick t).last = (if xs = [] then t.last else xs.getLast?) ∧
    (xs.foldl Tracker.tick t).boundary = (xs.take (w - t.ticks)).getLastD t.boundary := by
  induction xs generalizing t with
  | nil => simp [hw]
  | cons x xs ih =>
    obtain ⟨h1, h2, h3, h4⟩ := ih (t.tick x) (by simpa [Tracker.tick] using hw)
    rw [List.foldl_cons]
    refine ⟨h1, ?_, ?_, ?_⟩
    · rw [h2]; simp [Tracker.tick]; omega
    · rw [h3]
      cases xs with
      | nil => simp [Tracker.tick]
      | cons y ys => simp
    · rw [h4]
      unfold Tracker.tick
      dsimp only
      by_cases hle : t.ticks + 1 ≤ t.warmup
      · rw [if_pos hle]
        have : w - t.ticks = (w - (t.ticks + 1)) + 1 := by omega
        rw [this, List.take_succ_cons]
        rw [getLastD_cons']
      · rw [if_neg hle]
        have e1 : w - t.ticks = 0 := by omega
        have e2 : w - (t.ticks + 1) = 0 := by omega
        rw [e1, e2]
        simp

theorem durations_drop (n : Nat) : ∀ (t : Rat) (xs : List Rat),
    (durations t xs).drop n = durations ((xs.take n).getLastD t) (xs.drop n) := by
  induction n with
  | zero => intro t xs; simp
  | succ n ih =>
    intro t xs
    cases xs with
    | nil => simp [durations]
    | cons x xs =>
      rw [durations, List.drop_succ_cons, ih x xs, List.take_succ_cons, List.drop_succ_cons]
      rw [getLastD_cons']

/-- **C132.** The time per step: none until more steps than the warm-up have ended, then the average duration
of the steps after the warm-up, whatever happened before the last start. -/
theorem c132_time (tracker : Tracker) (start : Rat) (ends : List Rat) :
    (ends.foldl Tracker.tick (tracker.start start)).timePerStep =
      if ends.length ≤ tracker.warmup then none
      else some (((durations start ends).drop tracker.warmup).sum / (ends.length - tracker.warmup : Nat)) := by
  obtain ⟨h1, h2, h3, h4⟩ := ticks_fold tracker.warmup (tracker.start start) ends rfl
  unfold Tracker.timePerStep
  rw [h1, h2, h3, h4]
  simp only [Tracker.start, Nat.zero_add, Nat.sub_zero]
  by_cases hle : ends.length ≤ tracker.warmup
  · rw [if_pos hle]
    by_cases he : ends = []
    · simp [he]
    · rw [if_neg he]
      cases hl : ends.getLast? with
      | none => rfl
      | some x =>
        dsimp only
        rw [if_neg (by omega)]
  · rw [if_neg hle]
    have he : ends ≠ [] := by rintro rfl; simp at hle
    rw [if_neg he, List.getLast?_eq_some_getLast he]
    dsimp only
    rw [if_pos (by omega), durations_drop, durations_sum]
    congr 1
    have hd : ends.drop tracker.warmup ≠ [] := by
      rw [Ne, List.drop_eq_nil_iff]; omega
    have e1 : (ends.drop tracker.warmup).getLastD ((ends.take tracker.warmup).getLastD start)
        = ends.getLast he := by
      rw [List.getLastD_eq_getLast?, List.getLast?_eq_some_getLast hd, Option.getD_some, List.getLast_drop]
    rw [e1]
    congr 1
    push_cast [Nat.cast_sub (by omega : tracker.warmup ≤ ends.length)]
    rfl

/-- Two warm-up steps of 5 and 1 seconds, then steps of 2, 3 and 4 seconds. -/
example : ([5, 6, 8, 11, 15].foldl Tracker.tick ((Tracker.init 2 0).start 0)).timePerStep = some 3 := by
  decide +kernel

/-- `loss` and the missing `energy`, shown every second step; one warning. -/
example : (writes (V := Int) Int.ofNat 2 [⟨"loss", some "L", none⟩, ⟨"energy", none, some ".6f"⟩] []
      [(0, [("loss", 7)]), (1, [("loss", 6)]), (2, [("loss", 5)]), (4, [("energy", 1)])]).2.map
      (fun s => (s.step, s.parts, s.warned))
    = [(0, [⟨"L", 7, ".4f"⟩], ["energy"]), (2, [⟨"L", 5, ".4f"⟩], []), (4, [⟨"energy", 1, ".6f"⟩], ["loss"])] := by
  decide +kernel

end Jaqmc.LogRun.Props
