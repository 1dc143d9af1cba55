import Verif.Model.DmcData
/-!
What the properties of the DMC data keeping (C80-C83) speak about, in terms of what a user of
`dmc.run` can see: which steps were completed with which state and metrics, where the run resumed
or was rolled back to, and what the data files contain.
-/
namespace Jaqmc.DmcData

/-- One completed step: its number, the state after it, its metric row. -/
abbrev Entry (σ μ : Type) := Nat × σ × μ

section
variable {σ μ : Type}

/-- The trajectory in force after one more observation: a completed step is added; a rollback to,
or resumption from, step `r` keeps the steps up to `r`; a fresh start keeps nothing. -/
def extend (log : List (Entry σ μ)) : Out σ μ → List (Entry σ μ)
  | .fresh _ => []
  | .resumed r _ => log.filter (fun e => e.1 ≤ r)
  | .rolledBack r _ => log.filter (fun e => e.1 ≤ r)
  | .done t st row => log ++ [(t, st, row)]
  | _ => log

/-- The trajectory in force after a list of observations. -/
def traj (outs : List (Out σ μ)) : List (Entry σ μ) := outs.foldl extend []

/-- The metric rows of a trajectory. -/
def rowsOf (log : List (Entry σ μ)) : List (Nat × μ) := log.map (fun e => (e.1, e.2.2))

/-- A data file holds the state after step `t.step` of the trajectory, and exactly the metric rows
of the trajectory up to that step. -/
def Snapshot (log : List (Entry σ μ)) (t : Tar σ μ) : Prop :=
  (∃ row, (t.step, t.state, row) ∈ log) ∧ t.rows = rowsOf (log.filter (fun e => e.1 ≤ t.step))

/-- No file of the directory looks like a data file, and no two files have the same name. -/
def NoData (pre : Jaqmc.Checkpoint.Name) (d : Dir σ μ) : Prop :=
  (∀ e ∈ d, dataIndex pre e.1 = none) ∧ (d.map Prod.fst).Nodup

/-- A kill in the middle of copying a data file into the save path. -/
def MidCopy : Ev σ μ → Prop
  | .killIn _ k => k = 1
  | .killExit k => k = 1
  | _ => False

end
end Jaqmc.DmcData

namespace Jaqmc.DmcData
variable {σ μ : Type}

/-- The first step of a process as seen at its start. -/
def firstOf (a : Option Nat) : Out σ μ → Option Nat
  | .fresh t => some t
  | .resumed r _ => some (r + 1)
  | _ => a

/-- The first step of the process that runs after these observations. -/
def firstStep (outs : List (Out σ μ)) : Option Nat := outs.foldl firstOf none

/-- The number of rollbacks since the last start of a process. -/
def rollbacks (outs : List (Out σ μ)) : Nat :=
  outs.foldl (fun n o => match o with
    | .fresh _ => 0
    | .resumed _ _ => 0
    | .rolledBack _ _ => n + 1
    | _ => n) 0

/-- The documented selection of files to delete (ckpt_metric_manager.py:276-283, 460-474): not among
the `keep` newest, and the index no multiple of `every`. -/
def ShouldRemove (pre : Jaqmc.Checkpoint.Name) (names : List Jaqmc.Checkpoint.Name) (keep every : Nat)
    (n : Jaqmc.Checkpoint.Name) : Prop :=
  n ∈ names ∧ ∃ i, dataIndex pre n = some i ∧ ¬ every ∣ i ∧
    keep ≤ (names.filter (fun m => match dataIndex pre m with
      | some j => decide (i < j)
      | none => false)).length

end Jaqmc.DmcData
