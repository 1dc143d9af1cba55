import Verif.Model.Checkpoint
/-!
Model of the data keeping of the legacy DMC driver: `src/jaqmc_legacy/dmc/ckpt_metric_manager.py`,
`metric_manager.py`, `ckpt_handler.py`, the local half of `storage_handler.py`, and the loop and
recovery wrapper of `dmc.py`.

`σ` is the type of the DMC `State` that is pickled into a checkpoint and `μ` the type of a metric
row without its `step` column.  The CSV header line is left out of the metric file.  The remote
storage is the default dummy handler (`storage_handler.py:89-131`), which does nothing, and
`restore_path` holds no data.  Several hosts fail and roll back together
(`success_over_all_hosts`, dmc.py:902-905), so one host is modelled and a failure on any host is
the event `fail`.
-/
namespace Jaqmc.DmcData
open Jaqmc.Checkpoint (Name pad6 dictSet)

/-- Contents of an intact data tarball (ckpt_metric_manager.py:311-319): the checkpoint
`ckpt_{step}.npz` holding the state, and the metric file. -/
structure Tar (σ μ : Type) where
  step : Nat
  state : σ
  rows : List (Nat × μ)
  deriving DecidableEq

/-- A file with a data-file name: a complete tarball, or one that was only partly written. -/
inductive File (σ μ : Type) where
  | whole (t : Tar σ μ)
  | torn
  deriving DecidableEq

abbrev Dir (σ μ : Type) := List (Name × File σ μ)

/-- Errors that end the process. -/
inductive Err where
  | noSafeData      -- `NoSafeDataAvailable`, ckpt_metric_manager.py:26
  | noSafeFound     -- `Exception('No Safe data found')`, ckpt_metric_manager.py:363-365
  | unreadable      -- `tarfile.open`/`extractall` on an incomplete archive
  | fileNotFound    -- the checkpoint named after the step is not in the archive
  | tooManyRestores -- dmc.py:928-932
  | iteration       -- exception of the iteration itself, when there is no recovery wrapper
  deriving DecidableEq, Repr

/-- `_{step:06d}.tgz` and `.tgz`. -/
def dotTgz : Name := ['.', 't', 'g', 'z']

/-- `data_file_pattern.format(step=step)`, ckpt_metric_manager.py:99. -/
def dataName (pre : Name) (step : Nat) : Name := pre ++ '_' :: (pad6 step ++ dotTgz)

/-- The decimal value of a string of digits (`int(index_str)`). -/
def intOf (l : List Char) : Nat := l.foldl (fun a c => 10 * a + (c.toNat - 48)) 0

/-- `[0-9]` -/
def isDig (c : Char) : Bool := 48 ≤ c.toNat && c.toNat ≤ 57

/-- Does the rest of the name match `.tgz` of the regular expression?  The dot stands for any
character but a line feed, and `re.match` does not require the match to reach the end. -/
def tailOk : List Char → Bool
  | c :: 't' :: 'g' :: 'z' :: _ => c != '\n'
  | _ => false

/-- The greedy `([0-9]+)` with backtracking: the longest non-empty run of at most `k` characters
that can be followed by `.tgz`. -/
def matchDigits (l : List Char) : Nat → Option Nat
  | 0 => none
  | k + 1 => if tailOk (l.drop (k + 1)) then some (intOf (l.take (k + 1))) else matchDigits l k

/-- `_get_data_index`, ckpt_metric_manager.py:434-439, with the pattern of line 100.  The prefix is
taken to contain no character that is special in a regular expression. -/
def dataIndex (pre : Name) (name : Name) : Option Nat :=
  if (pre ++ ['_']).isPrefixOf name then
    let rest := name.drop (pre.length + 1)
    matchDigits rest (rest.takeWhile isDig).length
  else none

/-- `_find_latest_data`, ckpt_metric_manager.py:406-432, on the listing of a directory: the first
file with the largest index (the loop keeps the best seen so far, starting from index -1). -/
def findLatest {σ μ : Type} (pre : Name) (d : Dir σ μ) : Option (Nat × File σ μ) :=
  d.foldl (fun best e =>
    match dataIndex pre e.1 with
    | none => best
    | some i =>
      match best with
      | none => some (i, e.2)
      | some (j, f) => if j < i then some (i, e.2) else some (j, f)) none

/-- Remove a file. -/
def rmFile {σ μ : Type} (d : Dir σ μ) (n : Name) : Dir σ μ := d.filter (fun e => e.1 ≠ n)

/-- The state of a `CkptMetricManager` with its `MetricManager`: the steps of the unsafe and the
safe data, the workspace, the save directory, the metric file on disk and the rows still in the
buffer of its file object. -/
structure Mgr (σ μ : Type) where
  unsafeStep : Option Nat
  safeStep : Option Nat
  work : Dir σ μ
  save : Dir σ μ
  disk : List (Nat × μ)
  buf : List (Nat × μ)

section
variable {σ μ : Type}

/-- `setup` and `__enter__` without restore data, ckpt_metric_manager.py:115-142, 336-344: the workspace is
removed and made anew, so no safe or unsafe data is known. -/
def Mgr.fresh (save : Dir σ μ) : Mgr σ μ := ⟨none, none, [], save, [], []⟩

/-- `_has_data_at` in the workspace, ckpt_metric_manager.py:346-356, 374-380. -/
def Mgr.fileAt (pre : Name) (m : Mgr σ μ) (step : Option Nat) : Option (File σ μ) :=
  match step with
  | none => none
  | some s => m.work.lookup (dataName pre s)

/-- `MetricManager.write`, metric_manager.py:84-86. -/
def Mgr.write (m : Mgr σ μ) (step : Nat) (row : μ) : Mgr σ μ :=
  { m with buf := m.buf ++ [(step, row)] }

/-- `MetricManager.flush` and `close`, metric_manager.py:62-74: the buffer reaches the disk. -/
def Mgr.flush (m : Mgr σ μ) : Mgr σ μ := { m with disk := m.disk ++ m.buf, buf := [] }

/-- The file object writes the first `n` buffered rows to disk on its own. -/
def Mgr.osFlush (m : Mgr σ μ) (n : Nat) : Mgr σ μ :=
  { m with disk := m.disk ++ m.buf.take n, buf := m.buf.drop n }

/-- The save directory while `shutil.copy` (storage_handler.py:136-137, 169-170) puts file `f` under the name
`n`: before, incomplete, complete. -/
def putStages (save : Dir σ μ) (n : Name) (f : File σ μ) : List (Dir σ μ) :=
  [save, dictSet save n .torn, dictSet save n f]

/-- `_upload_safe_data` to the local save path, ckpt_metric_manager.py:358-372. -/
def Mgr.upload (pre : Name) (m : Mgr σ μ) : Except Err (Mgr σ μ) :=
  match m.safeStep, m.fileAt pre m.safeStep with
  | some s, some f => .ok { m with save := dictSet m.save (dataName pre s) f }
  | _, _ => .error .noSafeFound

/-- `_rm_data_in_workspace_at`, ckpt_metric_manager.py:382-388. -/
def Mgr.rmWork (pre : Name) (m : Mgr σ μ) (step : Option Nat) : Mgr σ μ :=
  match step with
  | none => m
  | some s => { m with work := rmFile m.work (dataName pre s) }

/-- The first half of `_save_unsafe_and_commit_safe_data`, ckpt_metric_manager.py:308-319: flush the
metric file and store checkpoint and metrics as the new unsafe data. -/
def Mgr.saveUnsafe (pre : Name) (m : Mgr σ μ) (step : Nat) (st : σ) : Mgr σ μ :=
  let m := m.flush
  { m with work := dictSet m.work (dataName pre step) (.whole ⟨step, st, m.disk⟩)
           unsafeStep := some step }

/-- `_save_unsafe_and_commit_safe_data`, ckpt_metric_manager.py:294-331. -/
def Mgr.commit (pre : Name) (m : Mgr σ μ) (step : Nat) (st : σ) : Except Err (Mgr σ μ) :=
  let m1 := m.saveUnsafe pre step st
  if (m.fileAt pre m.unsafeStep).isSome then
    match Mgr.upload pre { m1 with safeStep := m.unsafeStep } with
    | .error e => .error e
    | .ok m2 => .ok (m2.rmWork pre m.safeStep)
  else .ok m1

/-- `run`, ckpt_metric_manager.py:189-201. -/
def Mgr.run (pre : Name) (block : Nat) (m : Mgr σ μ) (step : Nat) (st : σ) (row : μ) :
    Except Err (Mgr σ μ) :=
  let m := m.write step row
  if step % block = 0 then m.commit pre step st else .ok m

/-- The save directories the process passes through during `run` (only `put` touches it). -/
def Mgr.runStages (pre : Name) (block : Nat) (m : Mgr σ μ) (step : Nat) (st : σ) (row : μ) :
    List (Dir σ μ) :=
  if step % block = 0 then
    match m.unsafeStep, (m.write step row |>.saveUnsafe pre step st).fileAt pre m.unsafeStep with
    | some u, some f =>
      if (m.fileAt pre m.unsafeStep).isSome then putStages m.save (dataName pre u) f else [m.save]
    | _, _ => [m.save]
  else [m.save]

/-- Open a data file found under index `s` (ckpt_metric_manager.py:241-247, 263-269): the archive
must be complete and contain the checkpoint named after `s`. -/
def openData (s : Nat) : File σ μ → Except Err (Tar σ μ)
  | .torn => .error .unreadable
  | .whole t => if t.step = s then .ok t else .error .fileNotFound

/-- `restore_and_rollback`, ckpt_metric_manager.py:203-223, with `load_latest_safe_data`
(249-269) and `MetricManager.reset` (metric_manager.py:88-100).  Returns the step, the state and the
new manager. -/
def Mgr.rollback (pre : Name) (m : Mgr σ μ) : Except Err (Nat × σ × Mgr σ μ) :=
  let m := m.flush
  match m.safeStep, m.fileAt pre m.safeStep with
  | some s, some f =>
    match openData s f with
    | .error e => .error e
    | .ok t =>
      let m := { m with disk := t.rows, buf := [] }
      let m := m.rmWork pre m.unsafeStep
      .ok (s, t.state, { m with unsafeStep := none })
  | _, _ => .error .noSafeData

/-- `__exit__`, ckpt_metric_manager.py:144-148: flush and upload the safe data again, without
failing when there is none. -/
def Mgr.exit (pre : Name) (m : Mgr σ μ) : Mgr σ μ :=
  match (m.flush).upload pre with
  | .error _ => m.flush
  | .ok m => m

/-- The save directories the process passes through during `__exit__`. -/
def Mgr.exitStages (pre : Name) (m : Mgr σ μ) : List (Dir σ μ) :=
  match m.safeStep, m.fileAt pre m.safeStep with
  | some s, some f => putStages m.save (dataName pre s) f
  | _, _ => [m.save]

/-! ### The driver -/

/-- The arguments of `dmc.run` that matter here (dmc.py:29-66). -/
structure Cfg where
  pre : Name          -- `data_prefix`
  block : Nat         -- `block_size`
  numSteps : Nat      -- `num_steps`
  tInit : Nat         -- `t_init`
  maxRestores : Nat   -- `max_restore_nums`

/-- A running process: manager, next step index, current state, restores so far. -/
structure Proc (σ μ : Type) where
  mgr : Mgr σ μ
  t : Nat
  state : σ
  restores : Nat

/-- What the iteration function does when called (dmc.py:295-298): it succeeds with a new state and
metrics; it rejects an energy outlier (dmc.py:463-472), leaving a state whose calculators it has
already updated; it, or the one of another host, raises; or nothing of that, but the metric file
object writes part of its buffer. -/
inductive Iter (σ μ : Type) where
  | ok (st : σ) (row : μ)
  | outlier (st : σ)
  | fail
  | osFlush (n : Nat)

/-- What can be seen from outside after each event. -/
inductive Out (σ μ : Type) where
  | fresh (t : Nat)                       -- started without restore data
  | resumed (r : Nat) (st : σ)            -- started from the data of step `r`
  | startFailed (e : Err)
  | done (t : Nat) (st : σ) (row : μ)     -- step `t` completed
  | rejected (t : Nat)
  | rolledBack (r : Nat) (st : σ)         -- back to the data of step `r`
  | aborted (e : Err)
  | finished                              -- the loop condition became false
  | killed
  | nothing
  deriving DecidableEq

/-- The whole system: the save directory while no process runs, or a process. -/
inductive Sys (σ μ : Type) where
  | down (save : Dir σ μ)
  | up (p : Proc σ μ)

/-- The save directory. -/
def Sys.save : Sys σ μ → Dir σ μ
  | .down d => d
  | .up p => p.mgr.save

/-- Events: start a process with the given default state; call the iteration; leave the loop when
its condition is false; kill the process between two iterations, during an iteration or while it
exits (`k` selects how far the save directory had got). -/
inductive Ev (σ μ : Type) where
  | start (init : σ)
  | iter (i : Iter σ μ)
  | kill
  | killIn (i : Iter σ μ) (k : Nat)
  | killExit (k : Nat)

/-- `dmc.run` up to the loop, dmc.py:174-216 and `load_restore_data` (ckpt_metric_manager.py:225-247)
with `_find_latest_data` over the save path. -/
def startProc (c : Cfg) (save : Dir σ μ) (init : σ) : Sys σ μ × Out σ μ :=
  match findLatest c.pre save with
  | none => (.up ⟨Mgr.fresh save, c.tInit, init, 0⟩, .fresh c.tInit)
  | some (r, f) =>
    match openData r f with
    | .error e => (.down save, .startFailed e)
    | .ok t => (.up ⟨{ Mgr.fresh save with disk := t.rows }, r + 1, t.state, 0⟩, .resumed r t.state)

/-- Leave the `with` block by an exception (dmc.py:281). -/
def abort (c : Cfg) (m : Mgr σ μ) (e : Err) : Sys σ μ × Out σ μ :=
  (.down (m.exit c.pre).save, .aborted e)

/-- One turn of the loop, dmc.py:282-345, around `recovery_wrapper`, dmc.py:907-939, applied at 265-272 (in effect
only if `max_restore_nums > 0`). -/
def iterate (c : Cfg) (p : Proc σ μ) (i : Iter σ μ) : Sys σ μ × Out σ μ :=
  if p.t < c.numSteps + c.block + 1 then
    match i with
    | .osFlush n => (.up { p with mgr := p.mgr.osFlush n }, .nothing)
    | .outlier st => (.up { p with state := st }, .rejected p.t)
    | .ok st row =>
      match p.mgr.run c.pre c.block p.t st row with
      | .error e => abort c p.mgr e
      | .ok m => (.up { p with mgr := m, t := p.t + 1, state := st }, .done p.t st row)
    | .fail =>
      if c.maxRestores = 0 then abort c p.mgr .iteration
      else if c.maxRestores < p.restores + 1 then abort c p.mgr .tooManyRestores
      else
        match p.mgr.rollback c.pre with
        | .error e => abort c p.mgr.flush e
        | .ok (r, st, m) =>
          (.up { mgr := m, t := r + 1, state := st, restores := p.restores + 1 }, .rolledBack r st)
  else (.down (p.mgr.exit c.pre).save, .finished)

/-- The save directories passed through during one turn of the loop. -/
def iterStages (c : Cfg) (p : Proc σ μ) (i : Iter σ μ) : List (Dir σ μ) :=
  if p.t < c.numSteps + c.block + 1 then
    match i with
    | .ok st row => p.mgr.runStages c.pre c.block p.t st row
    | _ => [p.mgr.save]
  else p.mgr.exitStages c.pre

/-- One event. -/
def step (c : Cfg) (s : Sys σ μ) (e : Ev σ μ) : Sys σ μ × Out σ μ :=
  match s, e with
  | .down d, .start init => startProc c d init
  | .down d, _ => (.down d, .nothing)
  | .up p, .iter i => iterate c p i
  | .up p, .kill => (.down p.mgr.save, .killed)
  | .up p, .killIn i k => (.down ((iterStages c p i)[k]?.getD p.mgr.save), .killed)
  | .up p, .killExit k => (.down ((p.mgr.exitStages c.pre)[k]?.getD p.mgr.save), .killed)
  | .up p, .start _ => (.up p, .nothing)

/-- A history of events from a save directory without a running process, with what was seen. -/
def exec (c : Cfg) (d : Dir σ μ) (es : List (Ev σ μ)) : Sys σ μ × List (Out σ μ) :=
  es.foldl (fun a e => let r := step c a.1 e; (r.1, a.2 ++ [r.2])) (.down d, [])

/-! ### Cleaning up -/

/-- Insert by decreasing index, after entries of the same index (`sorted(..., reverse=True)` is
stable), ckpt_metric_manager.py:482. -/
def insIdx (x : Nat × Name) : List (Nat × Name) → List (Nat × Name)
  | [] => [x]
  | y :: l => if x.1 ≤ y.1 then y :: insIdx x l else x :: y :: l

/-- ckpt_metric_manager.py:482-487: sort by decreasing index, skip the first `keep`, and select those
whose index is no multiple of `every`. -/
def selectOld (l : List (Nat × Name)) (keep every : Nat) : List Name :=
  ((((l.foldl (fun a x => insIdx x a) []).drop keep).filter (fun x => x.1 % every ≠ 0)).map Prod.snd)

/-- The indexed names, ckpt_metric_manager.py:476-480. -/
def indexed (pre : Name) (names : List Name) : List (Nat × Name) :=
  names.filterMap (fun n => (dataIndex pre n).map (fun i => (i, n)))

/-- `_get_to_remove_paths`, ckpt_metric_manager.py:460-487.  Line 475 assigns the empty list to
the very variable that holds the argument before the loop reads it. -/
def toRemove (pre : Name) (allPaths : List Name) (keep every : Nat) : List Name :=
  let allPaths : List Name := allPaths.take 0
  selectOld (indexed pre allPaths) keep every

/-- `clean_up_save_path` on the local save path with one worker, ckpt_metric_manager.py:271-292,
441-458. -/
def cleanUp (pre : Name) (save : Dir σ μ) (keep every : Nat) : Dir σ μ :=
  (toRemove pre (save.map Prod.fst) keep every).foldl rmFile save

end
end Jaqmc.DmcData
