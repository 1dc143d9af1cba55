/-!
Model of `WorkStage.run` (`src/jaqmc/workflow/stage/base.py:122-190`) together with the generators
`VMCWorkStage.loop` (`workflow/stage/vmc.py:277-317`) and `EvaluationWorkStage.loop`
(`workflow/stage/evaluation.py:231-272`), and of starting the program again and again on the same
directory.

A process is modelled by the list of its *disk effects* in program order (one statistics row per
step, checkpoint saves) and its outcome.  A crash is a prefix of that list.

Simplifications: one process (the master); sharding, logging and timing statistics omitted; the
restore path is the save path (the default, workflow/base.py:73-74); reading back the newest
complete checkpoint is abstracted by `latest` (justified for the file level by C01/C02).
-/
namespace Jaqmc.RunLoop

/-- `WorkStageConfig`, base.py:60-84 (the fields used by the loop). -/
structure Config where
  iterations : Nat
  saveTime : Int
  saveStep : Nat

/-- The parts of a stage the loop calls.  `S` state, `K` random key, `R` statistics of a step.
`burnIn` is `SamplingWorkStage.burn_in` (sampling.py:267-301), `compute` is `compute_step`
(vmc.py:227-265), `hasNan` is `_has_nan` (vmc.py:267-275; constantly false for evaluation). -/
structure Stage (S K R : Type) where
  split : K → K × K
  compute : S → K → R × S
  burnIn : S → K → S × K
  hasNan : R → Bool

/-- What a process sees of the outside world: `time.time()` at the start and after each step, and
whether a termination signal has been received when a step is finished. -/
structure Env where
  startTime : Int
  clock : Nat → Int
  signal : Nat → Bool

/-- Disk effects: a statistics row (vmc.py:314, evaluation.py:262-263), a completed checkpoint
(base.py:157). -/
inductive Effect (S R : Type) where
  | row (step : Nat) (r : R)
  | ckpt (step : Nat) (s : S)

/-- How a process ends by itself.  `zeroDiv`: `save_step_interval` is 0 and base.py:179 raises
`ZeroDivisionError`. -/
inductive Outcome (S : Type) where
  | done (s : S)
  | abort
  | zeroDiv

/-- The `for step, state in self.loop(...)` loop, base.py:170-186, fused with the generator body
vmc.py:311-317.  `n` is the number of remaining steps. -/
def loop {S K R : Type} (cfg : Config) (st : Stage S K R) (env : Env) :
    (n step : Nat) → S → K → (lastSave : Int) → List (Effect S R) × Outcome S
  | 0, _, s, _, _ => ([], .done s)
  | n + 1, step, s, k, lastSave =>
    let (k', sub) := st.split k
    let (r, s') := st.compute s sub
    if st.hasNan r then ([.row step r, .ckpt step s'], .abort)
    else if env.signal step then ([.row step r, .ckpt step s'], .abort)
    else if cfg.saveStep = 0 then ([.row step r], .zeroDiv)
    else
      let isLast := decide (step + 1 = cfg.iterations)
      let timeOk := decide (env.clock step - lastSave > cfg.saveTime)
      let stepOk := decide ((step + 1) % cfg.saveStep = 0)
      if isLast || (timeOk && stepOk) then
        let (es, o) := loop cfg st env n (step + 1) s' k' (env.clock step)
        (.row step r :: .ckpt step s' :: es, o)
      else
        let (es, o) := loop cfg st env n (step + 1) s' k' lastSave
        (.row step r :: es, o)

/-- The newest completed checkpoint: greatest step, the later one among equals. -/
def latest {S : Type} : List (Nat × S) → Option (Nat × S)
  | [] => none
  | c :: cs =>
    match latest cs with
    | none => some c
    | some d => if c.1 ≤ d.1 then some d else some c

/-- What a process does: the step at which the writers were opened (`none` if it returned
immediately, base.py:146-147), its effects and its outcome. -/
structure Process (S R : Type) where
  opened : Option Nat
  effects : List (Effect S R)
  outcome : Outcome S

/-- `WorkStage.run`, base.py:140-190.  `s0` is the fresh state built by `create_state`. -/
def run {S K R : Type} (cfg : Config) (st : Stage S K R) (env : Env) (s0 : S) (key : K)
    (ckpts : List (Nat × S)) : Process S R :=
  let (initial, s) := match latest ckpts with
    | none => (0, s0)
    | some (j, s) => (j + 1, s)
  if cfg.iterations ≤ initial then ⟨none, [], .done s⟩
  else
    let (s, k) := if initial = 0 then st.burnIn s key else (s, key)
    let (es, o) := loop cfg st env (cfg.iterations - initial) initial s k env.startTime
    ⟨some initial, es, o⟩

/-- One launch of the program: its environment, its random key, and, if it is killed, the number
of disk effects completed before the kill. -/
structure Launch (K : Type) where
  env : Env
  key : K
  kill : Option Nat

/-- The effects of a process that actually happened. -/
def happened {S R : Type} (p : Process S R) (kill : Option Nat) : List (Effect S R) :=
  match kill with
  | none => p.effects
  | some n => p.effects.take n

/-- Checkpoints completed by a list of effects. -/
def ckptsOf {S R : Type} : List (Effect S R) → List (Nat × S)
  | [] => []
  | .row _ _ :: es => ckptsOf es
  | .ckpt i s :: es => (i, s) :: ckptsOf es

/-- Rows completed by a list of effects. -/
def rowsOf {S R : Type} : List (Effect S R) → List (Nat × R)
  | [] => []
  | .row i r :: es => (i, r) :: rowsOf es
  | .ckpt _ _ :: es => rowsOf es

/-- A session of the writers: opened at step `start`, then `rows` completely written. -/
structure Session (R : Type) where
  start : Nat
  rows : List (Nat × R)
  deriving DecidableEq

/-- Run a sequence of launches on one directory; returns the completed checkpoints in the order
they were written and the writer sessions. -/
def history {S K R : Type} (cfg : Config) (st : Stage S K R) (s0 : S) :
    List (Nat × S) → List (Launch K) → List (Nat × S) × List (Session R)
  | ckpts, [] => (ckpts, [])
  | ckpts, l :: ls =>
    let p := run cfg st l.env s0 l.key ckpts
    let es := happened p l.kill
    let (ckpts', sess) := history cfg st s0 (ckpts ++ ckptsOf es) ls
    match p.opened with
    | none => (ckpts', sess)
    | some k => (ckpts', ⟨k, rowsOf es⟩ :: sess)

end Jaqmc.RunLoop
