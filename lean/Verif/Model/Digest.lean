import Verif.Model.RunLoop
/-!
Model of how an evaluation writes its digest: `EvaluationWorkStage.run` and `write_digest`,
`src/jaqmc/workflow/stage/evaluation.py:156-216`, on top of the model of `WorkStage.run`.

Simplifications: the digest is represented by the rows it averages; an evaluation whose estimators
return nothing to digest (evaluation.py:210-211) is left out; one process.
-/
namespace Jaqmc.Digest
open Jaqmc.RunLoop

/-- Disk effects of an evaluation: those of the loop, and the digest file (evaluation.py:213-215). -/
inductive Ev (S R : Type) where
  | eff (e : Effect S R)
  | digest

/-- The disk effects of one process: those of `WorkStage.run`, and then, if it returned normally, the
digest (evaluation.py:172-176), which `write_digest` skips when the estimators were not evaluated in
this process (`_reduce_keys` is empty, evaluation.py:203-204, estimator/base.py:306 and 359), i.e. when
`WorkStage.run` returned at once (base.py:146-147). -/
def events {S R : Type} (p : Process S R) : List (Ev S R) :=
  p.effects.map .eff ++
    match p.outcome, p.opened with
    | .done _, some _ => [.digest]
    | _, _ => []

/-- The directory: completed checkpoints, the rows of the evaluation's statistics file (append only,
evaluation.py:44-88), the rows averaged by the digest file if there is one. -/
structure Disk (S R : Type) where
  ckpts : List (Nat × S)
  rows : List (Nat × R)
  digest : Option (List (Nat × R))

/-- The effect of one event on the directory; the digest reads the whole statistics file
(evaluation.py:206). -/
def apply {S R : Type} (d : Disk S R) : Ev S R → Disk S R
  | .eff (.row i r) => { d with rows := d.rows ++ [(i, r)] }
  | .eff (.ckpt i s) => { d with ckpts := d.ckpts ++ [(i, s)] }
  | .digest => { d with digest := some d.rows }

/-- One launch of the evaluation, possibly killed after some of its disk effects. -/
def launch {S K R : Type} (cfg : Config) (st : Stage S K R) (s0 : S) (d : Disk S R) (l : Launch K) : Disk S R :=
  let es := events (run cfg st l.env s0 l.key d.ckpts)
  let es := match l.kill with
    | none => es
    | some n => es.take n
  es.foldl apply d

/-- A sequence of launches on one directory. -/
def evaluations {S K R : Type} (cfg : Config) (st : Stage S K R) (s0 : S) (d : Disk S R)
    (ls : List (Launch K)) : Disk S R := ls.foldl (launch cfg st s0) d

/-- An empty directory. -/
def fresh {S R : Type} : Disk S R := ⟨[], [], none⟩

end Jaqmc.Digest
