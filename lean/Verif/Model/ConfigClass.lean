import Verif.Model.Replay
/-!
Model of configurable classes: `configurable_dataclass` (src/jaqmc/utils/config.py:36-72) and `module_config` fields (config.py:75-202).

A class is what `serde.from_dict` followed by `serde.to_dict` does to a dictionary; pyserde is modelled by its documentation: unknown keys are refused
(`deny_unknown_fields`), every field is loaded from its value or has its default, and dumping writes the fields in order.  Fields that are not
serialised (`serde_skip`) do not appear.
-/
namespace Jaqmc.ConfigClass
open Jaqmc.Config Jaqmc.Replay

variable {V : Type}

/-- A field: its name, and what is dumped after loading it from its value, or from nothing. -/
structure Field (V : Type) where
  key : Str
  load : Option (Cfg V) → Except Err (Cfg V)

/-- Loading all fields in order. -/
def loadAll : List (Field V) → Entries V → Except Err (Entries V)
  | [], _ => .ok .nil
  | f :: fs, d => match f.load (d.lookup f.key) with
    | .error e => .error e
    | .ok c => match loadAll fs d with
      | .error e => .error e
      | .ok r => .ok (.cons f.key c r)

/-- A configurable dataclass with these fields, config.py:57-68. -/
def record (fields : List (Field V)) (d : Entries V) : Except Err (Entries V) :=
  if d.keys.all (fun k => fields.any (fun f => f.key = k)) then loadAll fields d else .error .serde

/-- A class that a module name resolves to: the name under which it dumps itself, `type(instance).__module__:__name__` (config.py:148-151), and its loading. -/
structure Cls (V : Type) where
  name : V
  norm : Entries V → Except Err (Entries V)

/-- The default of a `module_config` field, config.py:121-125 and 155-160: a value given directly, or a class with the name of its module. -/
inductive Default (V : Type)
  | direct (v : V)
  | cls (module : V) (c : Cls V)

/-- The arguments of `module_config`; `direct` is `serde.from_dict(direct_value_type, ·)`, `resolve` is `resolve_object` with the import base. -/
structure ModuleField (V : Type) where
  default : Default V
  kwargs : Entries V
  direct : V → Except Err V
  resolve : V → Except Err (Cls V)

/-- `default_module`, config.py:121-125. -/
def ModuleField.defaultModule (f : ModuleField V) : Option V := match f.default with
  | .direct _ => none
  | .cls m _ => some m

/-- `serializer` of an instance, config.py:144-152. -/
def dumpInstance (c : Cls V) (r : Entries V) : Cfg V := .dict (.cons moduleKey (.leaf c.name) r)

/-- `deserializer` of a dictionary followed by `serializer`, config.py:130-152. -/
def ModuleField.loadDict (f : ModuleField V) (u : Entries V) : Except Err (Cfg V) :=
  let mod := match u.lookup moduleKey with
    | none => f.defaultModule
    | some (.leaf m) => some m
    | some (.dict _) => none
  match mod with
  | none => .error .serde
  | some m => match f.resolve m with
    | .error e => .error e
    | .ok c => match c.norm (deepMerge f.kwargs (u.erase moduleKey)) with
      | .error e => .error e
      | .ok r => .ok (dumpInstance c r)

/-- A `module_config` field: `deserializer` and `serializer`, or `factory`, config.py:127-160. -/
def ModuleField.load (f : ModuleField V) : Option (Cfg V) → Except Err (Cfg V)
  | some (.leaf v) => match f.direct v with
    | .ok w => .ok (.leaf w)
    | .error e => .error e
  | some (.dict u) => f.loadDict u
  | none => match f.default with
    | .direct v => .ok (.leaf v)
    | .cls _ c => match c.norm f.kwargs with
      | .ok r => .ok (dumpInstance c r)
      | .error e => .error e

end Jaqmc.ConfigClass
