import Verif.Model.RunLoop
/-! Specification vocabulary for C04–C10. -/
namespace Jaqmc.RunLoop.Spec
open Jaqmc.RunLoop

/-- `Valid n sessions`: writer sessions that a statistics file can meet when `n` rows are in it:
each session starts at a step whose predecessors all have a row, and writes the following steps
consecutively. -/
def Valid {R : Type} : Nat → List (Session R) → Prop
  | _, [] => True
  | n, s :: ss =>
    s.start ≤ n ∧ s.rows.map Prod.fst = List.range' s.start s.rows.length ∧
    Valid (s.start + s.rows.length) ss

/-- The surviving timeline after a sequence of sessions: a session that starts at step `k` discards
everything from step `k` on. -/
def timeline {R : Type} : List (Nat × R) → List (Session R) → List (Nat × R)
  | t, [] => t
  | t, s :: ss => timeline (t.take s.start ++ s.rows) ss

/-- The states an uninterrupted run goes through when a step depends on the state only. -/
def iterate {S : Type} (f : S → S) : Nat → S → S
  | 0, s => s
  | n + 1, s => iterate f n (f s)

/-- The time of the last save before step `i`, given the steps saved so far: the clock reading at
the greatest saved step below `i`, or the start time. -/
def lastSaveBefore (start : Int) (clock : Nat → Int) (saved : Nat → Prop) (i : Nat) (t : Int) : Prop :=
  (∃ j, j < i ∧ saved j ∧ t = clock j ∧ ∀ j', saved j' → j' < i → j' ≤ j) ∨
  ((∀ j, saved j → ¬ j < i) ∧ t = start)

end Jaqmc.RunLoop.Spec
