import Verif.Model.Checkpoint
/-!
Model of `src/jaqmc/writer/console.py` (field specifications), `src/jaqmc/utils/module_resolver.py`,
`src/jaqmc/utils/wiring.py` and the configuration snapshot of `src/jaqmc/workflow/base.py`.
Strings are lists of characters.
-/
namespace Jaqmc.Misc
open Jaqmc.Checkpoint (decimal)

abbrev Str := List Char

/-! ### Python string methods -/

/-- `s.split(sep, 1)` when `sep` occurs in `s`; `none` when it does not. -/
def splitFirst (sep : Char) : Str → Option (Str × Str)
  | [] => none
  | c :: cs => if c = sep then some ([], cs)
      else (splitFirst sep cs).map (fun p => (c :: p.1, p.2))

/-- `s.rsplit(sep, 1)` when `sep` occurs in `s`; `none` when it does not. -/
def splitLast (sep : Char) (s : Str) : Option (Str × Str) :=
  (splitFirst sep s.reverse).map (fun p => (p.2.reverse, p.1.reverse))

/-- `s.split(sep)`. -/
def splitAll (sep : Char) : Str → List Str
  | [] => [[]]
  | c :: cs =>
    if c = sep then [] :: splitAll sep cs
    else match splitAll sep cs with
      | [] => [[c]]
      | p :: ps => (c :: p) :: ps

/-- `s.strip()` for a whitespace predicate. -/
def strip (isSpace : Char → Bool) (s : Str) : Str :=
  ((s.dropWhile isSpace).reverse.dropWhile isSpace).reverse

/-! ### Console fields -/

/-- `FieldSpec`, console.py:18-35. -/
structure FieldSpec where
  key : Str
  alias : Option Str
  fmt : Option Str
  deriving DecidableEq

/-- The part of `FieldSpec.parse` after the alias, console.py:62-69: the last colon-separated segment
is a format only when it contains a digit. `isDigit` is Python's `str.isdigit`. -/
def parseRest (isDigit : Char → Bool) (alias : Option Str) (rest : Str) : FieldSpec :=
  match splitLast ':' rest with
  | some (key, candidate) =>
    if candidate.any isDigit then ⟨key, alias, some candidate⟩ else ⟨rest, alias, none⟩
  | none => ⟨rest, alias, none⟩

/-- `FieldSpec.parse`, console.py:36-70. -/
def parseField (isDigit : Char → Bool) (spec : Str) : FieldSpec :=
  match splitFirst '=' spec with
  | some (alias, rest) => parseRest isDigit (some alias) rest
  | none => parseRest isDigit none spec

/-- `ConsoleWriter.__post_init__`, console.py:92-94: the list of fields. -/
def parseFields (isDigit isSpace : Char → Bool) (fields : Str) : List FieldSpec :=
  (splitAll ',' fields).map (fun f => parseField isDigit (strip isSpace f))

/-! ### Object references -/

/-- Python exceptions met when resolving a reference. -/
inductive RefErr where
  | valueError
  | attributeError
  | moduleNotFound
  | importFailed
  deriving DecidableEq

/-- A module: `__all__` (empty list when absent) and its attributes; `some none` is an attribute
whose value is Python's `None`. -/
structure PyModule (O : Type) where
  all : List Str
  attrs : Str → Option (Option O)

/-- The import system: absolute modules, modules relative to a package, and files.  Each import
succeeds or raises.  `relative pkg name` is `none` when the package has no such module (the import
raises `ModuleNotFoundError`) and otherwise what executing that module's body does; the body itself
may raise `ModuleNotFoundError` because one of *its* imports is missing. -/
structure Imports (O : Type) where
  absolute : Str → Except RefErr (PyModule O)
  relative : Str → Str → Option (Except RefErr (PyModule O))
  file : Str → Except RefErr (PyModule O)

variable {O : Type}

/-- `import_module_or_file`, module_resolver.py:11-41. -/
def importModuleOrFile (imp : Imports O) (name : Str) (package : Option Str) :
    Except RefErr (PyModule O) :=
  if ['.', 'p', 'y'] <:+ name then imp.file name
  else match package with
    | some pkg => match imp.relative pkg name with
      | none => imp.absolute name
      | some (.error .moduleNotFound) => imp.absolute name
      | some r => r
    | none => imp.absolute name

/-- `resolve_object` after splitting, module_resolver.py:87-96. -/
def resolveIn (imp : Imports O) (package : Option Str) (module objName : Str) : Except RefErr O :=
  match importModuleOrFile imp module package with
  | .error e => .error e
  | .ok m =>
    let get (n : Str) : Except RefErr O := match m.attrs n with
      | none => .error .attributeError
      | some none => .error .valueError
      | some (some o) => .ok o
    if objName = [] then
      match m.all with
      | [] => .error .valueError
      | n :: _ => get n
    else get objName

/-- `resolve_object`, module_resolver.py:44-96. -/
def resolveObject (imp : Imports O) (package : Option Str) (name : Str) : Except RefErr O :=
  match splitAll ':' name with
  | [module] => resolveIn imp package module []
  | [module, objName] => resolveIn imp package module objName
  | _ => .error .valueError

/-! ### Wiring -/

/-- A component: the list of its dataclass fields, in order (wiring.py uses `fields(component)`).
A field is a runtime dependency (with or without default) holding a value or nothing, a plain value,
a nested dataclass instance, or a dataclass *type* used as a value.  Simplification: components form
a tree (no shared sub-objects), values are never themselves `LateInit` markers, and instances are not
frozen. -/
inductive Comp (V : Type) where
  | nil
  | runtime (name : Str) (required : Bool) (val : Option V) (rest : Comp V)
  | plain (name : Str) (v : V) (rest : Comp V)
  | sub (name : Str) (c : Comp V) (rest : Comp V)
  | cls (name : Str) (rest : Comp V)

inductive WireErr where
  | valueError
  | typeError
  deriving DecidableEq

variable {V : Type}

/-- The field loop of `wire`, wiring.py:134-143.  Returns the component with the fields set so far, whether
some required dependency of *this* component is missing, and the exception raised by a nested call.
-/
def wireLoop (kwargs : List (Str × V)) : Comp V → Comp V × Bool × Option WireErr
  | .nil => (.nil, false, none)
  | .plain n v rest =>
    let r := wireLoop kwargs rest
    (.plain n v r.1, r.2)
  | .cls n rest => (.cls n rest, false, some .typeError)
  | .sub n c rest =>
    let rc := wireLoop kwargs c
    match rc.2.2, rc.2.1 with
    | some e, _ => (.sub n rc.1 rest, false, some e)
    | none, true => (.sub n rc.1 rest, false, some .valueError)
    | none, false =>
      let r := wireLoop kwargs rest
      (.sub n rc.1 r.1, r.2)
  | .runtime n req val rest =>
    let r := wireLoop kwargs rest
    match kwargs.lookup n with
    | some v => (.runtime n req (some v) r.1, r.2)
    | none => (.runtime n req val r.1, r.2.1 || req, r.2.2)

/-- `wire`, wiring.py:100-150: the component after the call and the exception, if any. -/
def wire (kwargs : List (Str × V)) (c : Comp V) : Comp V × Option WireErr :=
  let r := wireLoop kwargs c
  (r.1, match r.2.2, r.2.1 with
    | some e, _ => some e
    | none, true => some .valueError
    | none, false => none)

/-- `check_wired`, wiring.py:153-183: whether it raises.  Only the component's own fields are
inspected. -/
def checkWiredRaises : Comp V → Bool
  | .nil => false
  | .runtime _ req val rest => (req && val.isNone) || checkWiredRaises rest
  | .plain _ _ rest => checkWiredRaises rest
  | .sub _ _ rest => checkWiredRaises rest
  | .cls _ rest => checkWiredRaises rest

/-! ### Configuration snapshots -/

/-- A run directory: file name (relative to `save_path`) to contents. -/
abbrev Dir := List (Str × Str)

/-- The fixed parts of the file names, as character lists. -/
def configWord : Str := ['c', 'o', 'n', 'f', 'i', 'g']
def yamlExt : Str := ['.', 'y', 'a', 'm', 'l']
def historyPrefix : Str := ['c', 'o', 'n', 'f', 'i', 'g', '_', 'h', 'i', 's', 't', 'o', 'r', 'y', '/']
def backupMark : Str := ['.', 'b', 'a', 'c', 'k', 'u', 'p', '_']

/-- `config_path`, workflow/base.py:134-139 (relative to the run directory), for an optional namespace. -/
def configStem : Option Str → Str
  | none => configWord
  | some [] => configWord
  | some ns => ns ++ ('_' :: configWord)

def configPath (ns : Option Str) : Str := configStem ns ++ yamlExt

/-- The names tried by `config_backup_path`, workflow/base.py:141-153: without suffix first, then `_1`, `_2`, …. -/
def backupCandidate (ns : Option Str) (timestamp : Str) : Nat → Str
  | 0 => historyPrefix ++ configStem ns ++ backupMark ++ timestamp ++ yamlExt
  | k + 1 => historyPrefix ++ configStem ns ++ backupMark ++ timestamp
      ++ ('_' :: decimal (k + 1)) ++ yamlExt

def exists? (d : Dir) (p : Str) : Bool := (d.lookup p).isSome

/-- The `while backup_path.exists()` loop, workflow/base.py:149-152, with fuel; `none` means the fuel ran out. -/
def backupLoop (d : Dir) (ns : Option Str) (ts : Str) : Nat → Nat → Option Str
  | 0, _ => none
  | fuel + 1, k =>
    if exists? d (backupCandidate ns ts k) then backupLoop d ns ts fuel (k + 1)
    else some (backupCandidate ns ts k)

def remove (d : Dir) (p : Str) : Dir := d.filter (fun e => e.1 ≠ p)

/-- Writing a file replaces its contents. -/
def write (d : Dir) (p content : Str) : Dir := (p, content) :: remove d p

/-- Where `prepare` is killed. -/
inductive Kill where
  | none
  | beforeWrite
  | torn (kept : Nat)
  deriving DecidableEq

/-- One call of `prepare`: the namespace, the clock, the resolved configuration, `dry_run`, whether
`finalize` raises, and where the process is killed. -/
structure Run where
  ns : Option Str
  ts : Str
  yaml : Str
  dry : Bool
  finalizeRaises : Bool
  kill : Kill

/-- The final `write_text`, workflow/base.py:179, under a kill: nothing written, a prefix written, or all. -/
def writeText (d : Dir) (r : Run) : Dir :=
  match r.kill with
  | .none => write d (configPath r.ns) r.yaml
  | .beforeWrite => d
  | .torn k => write d (configPath r.ns) (r.yaml.take k)

/-- `prepare`, workflow/base.py:154-179, on the master process.  The loop over backup names is given enough
fuel; `c48_backup_found` proves it is never exhausted. -/
def prepare (d : Dir) (r : Run) : Dir :=
  if r.finalizeRaises || r.dry then d
  else match d.lookup (configPath r.ns) with
    | none => writeText d r
    | some previous =>
      if previous = r.yaml then writeText d r
      else match backupLoop d r.ns r.ts (d.length + 1) 0 with
        | none => d
        | some backup =>
          writeText ((backup, previous) :: remove d (configPath r.ns)) r

end Jaqmc.Misc
