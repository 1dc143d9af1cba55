import Verif.Model.Config
/-!
Model of the resolved configuration that `ConfigManager` records while options are read (src/jaqmc/utils/config.py:470-674), which the
workflow saves as `config.yaml` (src/jaqmc/workflow/base.py:136-175) and which can be given as the configuration of another run.

Names are given by their components (`name.split(".")`, see C14).  What is recorded is a dictionary; writing and reading YAML is taken to be
lossless.  An object is determined by its class and by what `serde.to_dict` says about it.  Simplifications: a primitive is a single value (a default of
`None` also lets a dictionary through), a dictionary as module name is refused at once, and `get_module` records `name.module` and then all of `name`,
of which only the second is modelled because it replaces the first.
-/
namespace Jaqmc.Replay
open Jaqmc.Config

variable {V : Type}

/-- The key `"module"`. -/
def moduleKey : Str := "module".toList

/-- What a module name resolves to, config.py:510-512: a dataclass, given by `serde.from_dict` followed by `serde.to_dict`, or another callable,
given by the defaults of its parameters. -/
inductive Impl (V : Type)
  | dataclass (norm : Entries V → Except Err (Entries V))
  | callable (sig : Entries V)

/-- The ways to read an option, config.py:470-512. -/
inductive Read (V : Type)
  /-- `_get_primitive`, config.py:598-607; `conv` is `type(default)(...)`, and the default if there is no value. -/
  | primitive (name : List Str) (conv : Option (Cfg V) → Except Err V)
  /-- `_get_container`, config.py:609-623. -/
  | container (name : List Str) (default : Cfg V)
  /-- `_get_dataclass`, config.py:625-657; `base` is `serde.to_dict` of the default instance, or empty. -/
  | dataclass (name : List Str) (base : Entries V) (norm : Entries V → Except Err (Entries V))
  /-- `_get_callable`, config.py:659-674. -/
  | callable (name : List Str) (sig : Entries V)
  /-- `get_module`, config.py:487-512; `choose` is `str(...)` with the default, `resolve` is `resolve_object`. -/
  | module (name : List Str) (choose : Option V → Except Err V) (resolve : V → Except Err (Impl V))

/-- The name of the option. -/
def Read.name : Read V → List Str
  | .primitive n _ => n
  | .container n _ => n
  | .dataclass n _ _ => n
  | .callable n _ => n
  | .module n _ _ => n

/-- `merged` of `_get_callable`, config.py:667-671; a value that is not a dictionary has no `items()`. -/
def callableData (defaults : Entries V) : Option (Cfg V) → Except Err (Entries V)
  | none => .ok (deepMerge defaults .nil)
  | some (.dict u) => .ok (deepMerge defaults u)
  | some (.leaf _) => .error .notADict

/-- What is read and recorded, from the merged configuration. -/
def Read.act (merged : Entries V) : Read V → Except Err (Cfg V)
  | .primitive n conv => match conv (getPath n merged) with
    | .ok v => .ok (.leaf v)
    | .error e => .error e
  | .container n default => .ok (match getPath n merged with
    | none => default
    | some (.dict u) => match default with
      | .dict d => .dict (deepMerge d u)
      | .leaf _ => .dict u
    | some (.leaf v) => .leaf v)
  | .dataclass n base norm => match norm (deepMerge base (sectionData (getPath n merged))) with
    | .ok r => .ok (.dict r)
    | .error e => .error e
  | .callable n sig => match callableData sig (getPath n merged) with
    | .ok r => .ok (.dict r)
    | .error e => .error e
  | .module n choose resolve =>
    let chosen := match getPath (n ++ [moduleKey]) merged with
      | none => choose none
      | some (.leaf v) => choose (some v)
      | some (.dict _) => .error .notADict
    match chosen with
    | .error e => .error e
    | .ok m => match resolve m with
      | .error e => .error e
      | .ok (.dataclass norm) => match norm (sectionData (getPath n merged)) with
        | .ok r => .ok (.dict (.cons moduleKey (.leaf m) r))
        | .error e => .error e
      | .ok (.callable sig) => match callableData (.cons moduleKey (.leaf m) sig) (getPath n merged) with
        | .ok r => .ok (.dict r)
        | .error e => .error e

/-- What can be seen of a value at a path below it: nothing, a dictionary, or a single value.  Python compares dictionaries like this, without
the order of their keys. -/
def Cfg.see : Cfg V → List Str → Option (Option V)
  | .leaf v, [] => some (some v)
  | .dict _, [] => some none
  | .leaf _, _ :: _ => none
  | .dict e, k :: p => match e.lookup k with
    | none => none
    | some c => Cfg.see c p
termination_by _ p => p.length

/-- A program that reads options one after the other; what it reads next and what it does depends on what it has read. -/
inductive Prog (V A : Type)
  | ret (a : A)
  | read (r : Read V) (next : (List Str → Option (Option V)) → Prog V A)

/-- `ConfigManager`: presets, files and command line, and `resolved_config`. -/
structure Session (V : Type) where
  presets : Entries V
  user : Entries V
  cli : Entries V
  resolved : Entries V

/-- `_merged`, config.py:399-401. -/
def Session.merged (s : Session V) : Entries V := deepMerge (deepMerge s.presets s.user) s.cli

/-- Running a program: its result, the names it read, and the session after it. -/
def Prog.run {A : Type} : Prog V A → Session V → Except Err (A × List (List Str) × Session V)
  | .ret a, s => .ok (a, [], s)
  | .read r next, s => match r.act s.merged with
    | .error e => .error e
    | .ok c => match setPath c r.name s.resolved with
      | .error e => .error e
      | .ok res => match (next (Cfg.see c)).run { s with resolved := res } with
        | .error e => .error e
        | .ok (a, names, s') => .ok (a, r.name :: names, s')

/-- A new session with the given presets, files and command line, config.py:335-361. -/
def Session.start (presets user cli : Entries V) : Session V := ⟨presets, user, cli, .nil⟩

end Jaqmc.Replay
