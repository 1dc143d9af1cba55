/-!
Model of `src/jaqmc/utils/config.py`: nested option dictionaries, `deep_merge`, dotted paths,
command-line overrides, detection of unused options, and the readers of `ConfigManager`.

Strings are lists of characters.  A configuration value is a leaf (anything that is not a `dict`)
or a dictionary; a dictionary is its list of entries in insertion order.
-/
namespace Jaqmc.Config

abbrev Str := List Char

mutual
/-- A configuration value. -/
inductive Cfg (V : Type) where
  | leaf (v : V)
  | dict (e : Entries V)

/-- The entries of a Python `dict`. -/
inductive Entries (V : Type) where
  | nil
  | cons (k : Str) (v : Cfg V) (rest : Entries V)
end

variable {V : Type}

/-- `d.get(k)`. -/
def Entries.lookup (k : Str) : Entries V → Option (Cfg V)
  | .nil => none
  | .cons k' v r => if k' = k then some v else r.lookup k

/-- `d[k] = v`: replaces in place or appends. -/
def Entries.set (k : Str) (v : Cfg V) : Entries V → Entries V
  | .nil => .cons k v .nil
  | .cons k' v' r => if k' = k then .cons k v r else .cons k' v' (r.set k v)

/-- The keys of a dictionary. -/
def Entries.keys : Entries V → List Str
  | .nil => []
  | .cons k _ r => k :: r.keys

mutual
/-- The loop of `deep_merge`, config.py:688-692; `result` is the dictionary built so far. -/
def mergeInto (result : Entries V) : Entries V → Entries V
  | .nil => result
  | .cons k v o => mergeInto (result.set k (mergeValue (result.lookup k) v)) o

/-- The value stored for one key, config.py:689-692. -/
def mergeValue (old : Option (Cfg V)) : Cfg V → Cfg V
  | .dict o => match old with
    | some (.dict b) => .dict (mergeInto b o)
    | _ => .dict o
  | .leaf v => .leaf v
end

/-- `deep_merge`, config.py:681-693. -/
def deepMerge (base override : Entries V) : Entries V := mergeInto base override

/-- Why an option operation fails: an intermediate value is not a dictionary (`AttributeError` or
`TypeError` in Python), or serde rejects the data. -/
inductive Err where
  | notADict
  | serde
  deriving DecidableEq

/-- `_set_path` on the split path, config.py:701-705.  `"".split(".")` is `[""]`, so a path is
never empty; the empty list is a model artefact. -/
def setPath (v : Cfg V) : List Str → Entries V → Except Err (Entries V)
  | [], d => .ok d
  | [k], d => .ok (d.set k v)
  | k :: p, d =>
    match d.lookup k with
    | none => match setPath v p .nil with
      | .ok sub => .ok (d.set k (.dict sub))
      | .error e => .error e
    | some (.dict sub) => match setPath v p sub with
      | .ok sub' => .ok (d.set k (.dict sub'))
      | .error e => .error e
    | some (.leaf _) => .error .notADict

/-- `_get_path`, config.py:708-714. -/
def getPath : List Str → Entries V → Option (Cfg V)
  | [], _ => none
  | [k], d => d.lookup k
  | k :: p, d =>
    match d.lookup k with
    | some (.dict sub) => getPath p sub
    | _ => none

/-- `s.split(".")`. -/
def splitDot : Str → List Str
  | [] => [[]]
  | c :: s =>
    if c = '.' then [] :: splitDot s
    else match splitDot s with
      | [] => [[c]]
      | x :: xs => (c :: x) :: xs

/-- `entry.partition("=")`: before and after the first `=`. -/
def partitionEq : Str → Str × Str
  | [] => ([], [])
  | c :: s => if c = '=' then ([], s) else let (a, b) := partitionEq s; (c :: a, b)

/-- `_dotlist_to_dict`, config.py:717-722; `load` is `yaml.safe_load`. -/
def dotlistToDict (load : Str → Cfg V) (acc : Entries V) : List Str → Except Err (Entries V)
  | [] => .ok acc
  | entry :: rest =>
    let (key, raw) := partitionEq entry
    match setPath (load raw) (splitDot key) acc with
    | .ok acc' => dotlistToDict load acc' rest
    | .error e => .error e

/-- Joining keys with dots. -/
def joinDot : List Str → Str
  | [] => []
  | [k] => k
  | k :: ks => k ++ '.' :: joinDot ks

/-- `path.startswith(f"{k}.")` and `path[len(k)+1:]`, config.py:785-787. -/
def dropPrefix (k : Str) (path : Str) : Option Str :=
  if (k ++ ['.']).isPrefixOf path then some (path.drop (k.length + 1)) else none

mutual
/-- `_find_unused_yaml_path`, config.py:773-791 (the set as a list). -/
def findUnused (visited : List Str) : Entries V → List Str
  | .nil => []
  | .cons k v r => unusedAt visited k v ++ findUnused visited r

/-- The paths reported for one entry, config.py:779-790. -/
def unusedAt (visited : List Str) (k : Str) : Cfg V → List Str
  | .leaf _ => if k ∈ visited then [] else [k]
  | .dict sub =>
    if k ∈ visited then []
    else (findUnused (visited.filterMap (dropPrefix k)) sub).map (fun s => k ++ '.' :: s)
end

/-- `ConfigManager`: the user configuration, the command-line configuration, the presets and the
visited paths (config.py:335-361). `_merged` is recomputed here from its parts (config.py:361,
399-401). -/
structure Manager (V : Type) where
  presets : Entries V
  user : Entries V
  cli : Entries V
  visited : List Str

/-- `_merged`, config.py:361 and 399-401.  (Before the first preset it is
`deep_merge(user, cli)`, which is the same lookup as merging into an empty preset.) -/
def Manager.merged (m : Manager V) : Entries V := deepMerge (deepMerge m.presets m.user) m.cli

/-- The user configuration built from several files, config.py:349-352. -/
def mergeAll : List (Entries V) → Entries V := List.foldl deepMerge .nil

/-- `use_preset`, config.py:390-401. -/
def Manager.usePreset (m : Manager V) (p : Entries V) : Manager V :=
  { m with presets := deepMerge m.presets p }

/-- `_extract_relevant`, config.py:594-596. -/
def Manager.extract (m : Manager V) (name : Str) : Option (Cfg V) × Manager V :=
  (getPath (splitDot name) m.merged, { m with visited := name :: m.visited })

/-- `_get_primitive`, config.py:598-607.  `coerce` is `type(default)(...)`; the default-`None` case
and the recording of the resolved value are omitted. -/
def Manager.getPrimitive (m : Manager V) (coerce : Cfg V → Except Err (Cfg V)) (name : Str)
    (default : Cfg V) : Except Err (Cfg V) × Manager V :=
  let (v, m') := m.extract name
  (match v with | some u => coerce u | none => .ok default, m')

/-- `_get_container`, config.py:609-623. -/
def Manager.getContainer (m : Manager V) (name : Str) (default : Cfg V) : Cfg V × Manager V :=
  let (v, m') := m.extract name
  (match v with
   | none => default
   | some (.dict u) => match default with
     | .dict d => .dict (deepMerge d u)
     | .leaf _ => .dict u
   | some u => u, m')

/-- Remove a key: `{k: v for k, v in d.items() if k != "module"}`. -/
def Entries.erase (k : Str) : Entries V → Entries V
  | .nil => .nil
  | .cons k' v r => if k' = k then r.erase k else .cons k' v (r.erase k)

/-- `config_data`, config.py:637-641: the value found for a dataclass section; anything that is not
a dictionary is replaced by the empty dictionary. -/
def sectionData (v : Option (Cfg V)) : Entries V :=
  match v with
  | some (.dict u) => u.erase "module".toList
  | _ => .nil

/-- `serde.from_dict(cls, merged)` with `deny_unknown_fields`: rejects keys that are not fields;
otherwise the object has the merged values (fields not mentioned keep the class default; type
coercion omitted). -/
def fromDict (fields : List Str) (data : Entries V) : Except Err (Entries V) :=
  if data.keys.all (fun k => fields.contains k) then .ok data else .error .serde

/-- `_get_dataclass`, config.py:625-657.  `base` is the default instance's data (empty for a class).
-/
def Manager.getDataclass (m : Manager V) (fields : List Str) (base : Entries V) (name : Str) :
    Except Err (Entries V) × Manager V :=
  let (v, m') := m.extract name
  (fromDict fields (deepMerge base (sectionData v)), m')

/-- The outcome of `finalize`, config.py:403-447: the reported paths, and whether `SystemExit` is
raised. -/
def Manager.finalize (m : Manager V) (raiseOnUnused : Bool) : List Str × Bool :=
  let unusedYaml := findUnused m.visited m.user
  let unusedCli := findUnused m.visited m.cli
  (unusedYaml ++ unusedCli, (!(unusedYaml ++ unusedCli).isEmpty) && raiseOnUnused)

/-! ### Collections of modules, config.py:514-558 -/

/-- The entries whose module is instantiated by `get_collection`: defaults merged with the user's
section, minus those set to `None` (config.py:521-532).  `isNone` recognises YAML `null`.  The user
section, if present, must be a dictionary. -/
def collectionItems (isNone : V → Bool) (defaults : Entries V) (user : Option (Entries V)) :
    Entries V :=
  let rec drop : Entries V → Entries V
    | .nil => .nil
    | .cons k (.leaf v) r => if isNone v then drop r else .cons k (.leaf v) (drop r)
    | .cons k (.dict d) r => .cons k (.dict d) (drop r)
  drop (deepMerge defaults (user.getD .nil))

end Jaqmc.Config
