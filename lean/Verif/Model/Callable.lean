import Verif.Model.Replay
/-!
Model of callables that take their options from the configuration: `_get_callable` (src/jaqmc/utils/config.py:659-674), `_safe_kw_partial` and
`_callable_defaults` (config.py:726-758), and of the classes made from optax functions, `_make_optax_dataclass` (src/jaqmc/optimizer/optax.py:25-90).

Calls follow the language reference of Python.  A failed call (`TypeError`) is `none`.
-/
namespace Jaqmc.Callable
open Jaqmc.Config Jaqmc.Replay

variable {X : Type}

/-- `inspect.Parameter.kind`. -/
inductive Kind
  | posOnly | posOrKw | varPos | kwOnly | varKw
  deriving DecidableEq

/-- A parameter of a function. -/
structure Param (X : Type) where
  name : Str
  kind : Kind
  default : Option X

/-- Parameters that arguments by position go to. -/
def Param.takesPos (p : Param X) : Bool := p.kind = .posOnly || p.kind = .posOrKw
/-- Parameters that arguments by keyword go to. -/
def Param.takesKw (p : Param X) : Bool := p.kind = .posOrKw || p.kind = .kwOnly
/-- Parameters with one value. -/
def Param.single (p : Param X) : Bool := p.takesPos || p.takesKw

/-- Keyword arguments. -/
abbrev Kw (X : Type) := List (Str × X)

/-- `a | b` on dictionaries: `b` wins. -/
def union (a b : Kw X) : Kw X := b ++ a.filter fun e => (b.lookup e.1).isNone

/-- What a function is called with: a value for each parameter, further positional and keyword arguments. -/
structure Bound (X : Type) where
  values : Kw X
  rest : List X
  extra : Kw X
  deriving DecidableEq

/-- The arguments that go to parameters by position. -/
def byPos (ps : List (Param X)) (args : List X) : Kw X := ((ps.filter (·.takesPos)).map (·.name)).zip args

/-- The value of a parameter in a call. -/
def valueOf (ps : List (Param X)) (args : List X) (kw : Kw X) (p : Param X) : Option X :=
  match (byPos ps args).lookup p.name with
  | some v => some v
  | none => match (if p.takesKw then kw.lookup p.name else none) with
    | some v => some v
    | none => p.default

/-- `f(*args, **kw)` for a function with these parameters (Python language reference, "Calls"). -/
def bind (ps : List (Param X)) (args : List X) (kw : Kw X) : Option (Bound X) :=
  let rest := args.drop (ps.filter (·.takesPos)).length
  let takes (k : Str) : Bool := ps.any fun p => p.takesKw && p.name = k
  let extra := kw.filter fun e => !takes e.1
  if rest ≠ [] ∧ ps.all (fun p => p.kind ≠ .varPos) then none
  else if extra ≠ [] ∧ ps.all (fun p => p.kind ≠ .varKw) then none
  else if kw.any (fun e => takes e.1 && ((byPos ps args).lookup e.1).isSome) then none
  else match (ps.filter (·.single)).mapM fun p => (valueOf ps args kw p).map fun v => (p.name, v) with
    | none => none
    | some values => some ⟨values, rest, extra⟩

/-- `_safe_kw_partial(f, **config)(*args, **kwargs)`, config.py:726-739. -/
def safeKwPartial (ps : List (Param X)) (config : Kw X) (args : List X) (kwargs : Kw X) : Option (Bound X) :=
  if ps.any fun p => p.kind = .varKw then bind ps args (union config kwargs)
  else bind ps args (union config (kwargs.filter fun e => (ps.map (·.name)).contains e.1))

/-- `_callable_defaults` without the module name, config.py:742-758 (`override_default` is never given). -/
def callableDefaults (ps : List (Param X)) : Kw X :=
  (ps.filter fun p => p.kind ≠ .varKw ∧ p.kind ≠ .varPos).filterMap fun p => p.default.map fun v => (p.name, v)

/-! ### Classes made from optax functions -/

/-- The annotation of a parameter: `optax.ScalarOrSchedule`, `jax.typing.ArrayLike`, or another one. -/
inductive Annotation
  | schedule | arrayLike | other
  deriving DecidableEq

/-- A parameter of an optax function; `numeric` is `isinstance(param.default, (int, float))`. -/
structure OptaxParam (X : Type) where
  param : Param X
  annotation : Annotation
  numeric : Bool

/-- The fields made from the parameters, optax.py:41-67: the name, and the default if the field has one; `standard` is the default schedule. -/
def optaxFields (standard : X) : List (OptaxParam X) → Option (List (Str × Option X))
  | [] => some []
  | q :: qs =>
    if q.param.kind = .varKw ∨ q.param.kind = .varPos then optaxFields standard qs
    else match q.annotation with
      | .schedule => (optaxFields standard qs).map fun r => (q.param.name, some (if q.numeric then q.param.default.getD standard else standard)) :: r
      | .arrayLike => (optaxFields standard qs).map fun r => (q.param.name, q.param.default) :: r
      | .other => match q.param.default with
        | none => none
        | some _ => optaxFields standard qs

/-- Making an object of the class: every field without default must be given, and only fields. -/
def optaxObject (fields : List (Str × Option X)) (given : Kw X) : Option (Kw X) :=
  if given.all fun e => fields.any fun f => f.1 = e.1 then fields.mapM fun f => (match given.lookup f.1 with
    | some v => some v
    | none => f.2).map fun v => (f.1, v)
  else none

/-- `init`, optax.py:69-73: the function is called with all fields by keyword. -/
def optaxInit (qs : List (OptaxParam X)) (object : Kw X) : Option (Bound X) := bind (qs.map (·.param)) [] object

end Jaqmc.Callable
