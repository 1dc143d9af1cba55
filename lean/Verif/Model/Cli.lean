import Verif.Model.Config
/-!
Model of a launch from the command line: `src/jaqmc/utils/cli.py`, `src/jaqmc/utils/runtime.py:configure_runtime`
and `src/jaqmc/workflow/base.py:Workflow.__init__,prepare,__call__`.

What a workflow reads of the configuration is an arbitrary program.  The three start-up classes are given by what
loading a section gives (the record that is kept in the resolved configuration, or an error).
-/
namespace Jaqmc.Cli
open Jaqmc.Config

/-- A program that reads the configuration: `cfg.use_preset` (config.py:390-401) and the readers `cfg.get` etc.
(config.py:598-673), each with the value it makes of what it finds and records. -/
inductive Prog (V W : Type) where
  | done (w : W)
  | fail
  | preset (p : Entries V) (k : Prog V W)
  | read (name : Str) (value : Option (Cfg V) → Except Err (Cfg V)) (k : Cfg V → Prog V W)

/-- `ConfigManager` with its `resolved_config` (config.py:340). -/
structure Session (V : Type) where
  manager : Manager V
  resolved : Entries V

/-- Why a launch ends early. -/
inductive Stop where
  /-- `ValueError`, cli.py:56-60 -/
  | notADictionary
  | config (e : Err)
  /-- an exception of the workflow's constructor -/
  | raised
  /-- `SystemExit`, config.py:443-448, with what was reported -/
  | unused (paths : List Str)
  deriving DecidableEq

/-- One reader: look up, make a value, record it (`_set_path(self.resolved_config, name, …)`,
config.py:598-607, 625-657). -/
def readOne {V : Type} (name : Str) (value : Option (Cfg V) → Except Err (Cfg V)) (s : Session V) :
    Except Stop (Cfg V × Session V) :=
  let r := s.manager.extract name
  match value r.1 with
  | .error e => .error (.config e)
  | .ok c => match setPath c (splitDot name) s.resolved with
    | .error e => .error (.config e)
    | .ok res => .ok (c, ⟨r.2, res⟩)

/-- Running a reading program. -/
def runProg {V W : Type} : Prog V W → Session V → Except Stop (W × Session V)
  | .done w, s => .ok (w, s)
  | .fail, _ => .error .raised
  | .preset p k, s => runProg k ⟨s.manager.usePreset p, s.resolved⟩
  | .read name value k, s => match readOne name value s with
    | .error e => .error e
    | .ok (c, s') => runProg (k c) s'

/-- What a launch does to the world. -/
inductive Effect (V W : Type) where
  | logging (c : Cfg V)
  | jax (c : Cfg V)
  | distributed (c : Cfg V)
  /-- the old snapshot of the configuration moved to the history -/
  | backup (w : W) (old : Str)
  | write (w : W) (text : Str)
  /-- `Workflow.run` -/
  | start (w : W)

/-- The code around a launch: the start-up classes (runtime.py:18-24, 62-90, 109-131), the YAML reader and
writer, the workflow, its `ignore_extra` (workflow/base.py:165) and the snapshot found at its config path. -/
structure Env (V W : Type) where
  logging : Option (Cfg V) → Except Err (Cfg V)
  jax : Option (Cfg V) → Except Err (Cfg V)
  distributed : Option (Cfg V) → Except Err (Cfg V)
  load : Str → Cfg V
  render : Entries V → Str
  workflow : Prog V W
  ignore : W → Bool
  snapshot : W → Option Str

/-- How a launch went: what it did, the workflow and the session it came to, why it ended early. -/
structure Outcome (V W : Type) where
  effects : List (Effect V W)
  built : Option (W × Session V)
  stop : Option Stop

def loggingName : Str := "logging".toList
def jaxName : Str := "jax".toList
def distributedName : Str := "distributed".toList

/-- `load_yaml` of every file (cli.py:37, 43-61). -/
def dicts {V : Type} : List (Cfg V) → Option (List (Entries V))
  | [] => some []
  | .leaf _ :: _ => none
  | .dict d :: r => match dicts r with
    | none => none
    | some ds => some (d :: ds)

/-- `Workflow.prepare` and `__call__` (workflow/base.py:128-132, 154-186; the checks of the subclasses that a
workflow sets its stages are left out). `first` is `jax.process_index() == 0`. -/
def prepare {V W : Type} (E : Env V W) (dry first : Bool) (before : List (Effect V W)) (w : W) (s : Session V) :
    Outcome V W :=
  let f := s.manager.finalize (!E.ignore w)
  if first && f.2 then ⟨before, some (w, s), some (.unused f.1)⟩
  else if dry then ⟨before, some (w, s), none⟩
  else
    let files := if first then
        (match E.snapshot w with
          | some old => if old ≠ E.render s.resolved then [.backup w old] else []
          | none => []) ++ [.write w (E.render s.resolved)]
      else []
    ⟨before ++ files ++ [.start w], some (w, s), none⟩

/-- The command after `configure_runtime` (cli.py:39): the workflow is built and called. -/
def launch {V W : Type} (E : Env V W) (dry first : Bool) (before : List (Effect V W)) (s : Session V) :
    Outcome V W :=
  match runProg E.workflow s with
  | .error e => ⟨before, none, some e⟩
  | .ok (w, s') => prepare E dry first before w s'

/-- `command` of `make_cli` (cli.py:34-39) with `configure_runtime` (runtime.py:154-164). -/
def command {V W : Type} (E : Env V W) (dry first : Bool) (files : List (Cfg V)) (dotlist : List Str) :
    Outcome V W :=
  match dicts files with
  | none => ⟨[], none, some .notADictionary⟩
  | some us =>
  match dotlistToDict E.load .nil dotlist with
  | .error e => ⟨[], none, some (.config e)⟩
  | .ok cli =>
  match readOne loggingName E.logging ⟨⟨.nil, mergeAll us, cli, []⟩, .nil⟩ with
  | .error e => ⟨[], none, some e⟩
  | .ok (l, s1) =>
  match readOne jaxName E.jax s1 with
  | .error e => ⟨[.logging l], none, some e⟩
  | .ok (j, s2) =>
  if dry then launch E dry first [.logging l, .jax j] s2
  else match readOne distributedName E.distributed s2 with
  | .error e => ⟨[.logging l, .jax j], none, some e⟩
  | .ok (d, s3) => launch E dry first [.logging l, .jax j, .distributed d] s3

end Jaqmc.Cli
