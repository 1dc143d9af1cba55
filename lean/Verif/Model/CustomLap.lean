import Verif.Spec.SparseArr
import Mathlib.Data.Real.Basic
/-!
Model of functions with a handwritten Forward Laplacian rule: `src/jaqmc/laplacian/custom_rules.py`, `laplacian/tracing.py`,
`laplacian/primitives/custom_laplacian.py` and the dispatch of `laplacian/interpreter.py:141-166`.  Arrays have real entries; pytrees are
flattened to lists of arrays; a rule returns tracked values with dense Jacobians, as its documentation demands.  `jax.vmap` (dependency) is
modelled by its documentation: the function is traced once, so whether a rule answers depends on kinds and shapes only.
-/
namespace Jaqmc.CustomLap
open Jaqmc.Sparse (Arr)

/-- An array of numbers. -/
abbrev RArr := Arr ℝ

/-- One slice `a[..., b, ...]` along an axis. -/
def slice (axis b : ℕ) (a : RArr) : RArr := ⟨a.shape.eraseIdx axis, fun i => a.get (i.insertIdx axis b)⟩

/-- Results of `jax.vmap` stacked along a new first axis. -/
def stack (size : ℕ) (f : ℕ → RArr) : RArr := ⟨size :: (f 0).shape, fun i => (f (i.headD 0)).get i.tail⟩

/-- `jnp.moveaxis(a, 0, 1)`. -/
def moveaxis01 (a : RArr) : RArr :=
  ⟨match a.shape with | b :: r :: s => r :: b :: s | s => s, fun i => match i with | r :: b :: i => a.get (b :: r :: i) | i => a.get i⟩

/-- A `LapTuple` with a dense Jacobian, whose first axis is that of the tracked inputs. -/
structure Triple where
  x : RArr
  jac : RArr
  lap : RArr

/-- An argument of the primitive: an array, a `LapTuple` with a dense Jacobian, or one with a sparse Jacobian (which stands for a dense one,
and is no array for JAX). -/
inductive Arg
  | plain (x : RArr)
  | dense (t : Triple)
  | sparse (t : Triple)

/-- What tracing sees of an argument. -/
inductive Kind
  | plain
  | dense
  | sparse
  deriving DecidableEq

/-- The value part. -/
def Arg.x : Arg → RArr
  | .plain x => x
  | .dense t => t.x
  | .sparse t => t.x

/-- The kind. -/
def Arg.kind : Arg → Kind
  | .plain _ => .plain
  | .dense _ => .dense
  | .sparse _ => .sparse

/-- Kind and shape. -/
abbrev Sig := Kind × List ℕ

/-- Kind and shape of an argument. -/
def Arg.sig (a : Arg) : Sig := (a.kind, a.x.shape)

/-- A handwritten rule: by kinds and shapes it raises `AutoLaplacianFallback` (`none`) or computes. -/
abbrev Rule := List Sig → Option (List Arg → List Triple)

/-- A function of arrays. -/
abbrev Fn := List RArr → List RArr

/-- Mapped axis of each argument; `none` is `not_mapped`. -/
abbrev Dims := List (Option ℕ)

/-- One slice of an array argument of `jax.vmap`. -/
def sliceOpt (axis : Option ℕ) (b : ℕ) (a : RArr) : RArr := match axis with | none => a | some k => slice k b a

/-- Number of slices: the size of the first mapped axis (`jax.vmap` refuses different sizes). -/
def mappedSize (dims : Dims) (shapes : List (List ℕ)) : ℕ :=
  (((dims.zip shapes).filterMap fun e => e.1.map fun k => e.2.getD k 0)).headD 0

/-- `jax.vmap(fn, in_axes=dims)` with results along the first axis (dependency; custom_laplacian.py:158-160). -/
def vmapFn (dims : Dims) (fn : Fn) : Fn := fun args =>
  let at_ := fun b => fn (List.zipWith (fun d a => sliceOpt d b a) dims args)
  (List.range (at_ 0).length).map fun o => stack (mappedSize dims (args.map (·.shape))) fun b => (at_ b).getD o ⟨[], fun _ => 0⟩

/-- One slice of an argument of the rule: `pytree_spec(axis, axis + 1, axis)`, custom_laplacian.py:57-69. -/
def sliceArg (axis : Option ℕ) (b : ℕ) (a : Arg) : Arg :=
  match axis, a with
  | none, a => a
  | some k, .plain x => .plain (slice k b x)
  | some k, .dense t => .dense ⟨slice k b t.x, slice (k + 1) b t.jac, slice k b t.lap⟩
  | some _, .sparse t => .sparse t

/-- Kind and shape of a slice. -/
def sliceSig (axis : Option ℕ) (s : Sig) : Sig := match axis with | none => s | some k => (s.1, s.2.eraseIdx k)

/-- `vmapped_rule`, custom_laplacian.py:72-87. -/
def vmapRule (dims : Dims) (rule : Rule) : Rule := fun sigs =>
  (rule (List.zipWith sliceSig dims sigs)).map fun run args =>
    let at_ := fun b => run (List.zipWith (fun d a => sliceArg d b a) dims args)
    let size := mappedSize dims (args.map (·.x.shape))
    (List.range (at_ 0).length).map fun o =>
      let t := fun b => (at_ b).getD o ⟨⟨[], fun _ => 0⟩, ⟨[], fun _ => 0⟩, ⟨[], fun _ => 0⟩⟩
      ⟨stack size fun b => (t b).x, moveaxis01 (stack size fun b => (t b).jac), stack size fun b => (t b).lap⟩

/-- `_replay_custom_rule_vmaps`, custom_laplacian.py:41-90. -/
def replay (history : List Dims) (rule : Rule) : Rule := history.foldl (fun r d => vmapRule d r) rule

/-- The staged primitive: the id of the function, the (batched) function, and the recorded `vmap`s. -/
structure Prim where
  id : ℕ
  primal : Fn
  history : List Dims

/-- `bind_custom_laplacian`, custom_laplacian.py:262-285. -/
def bind (fn : Fn) (id : ℕ) : Prim := ⟨id, fn, []⟩

/-- `_custom_laplacian_batch`, custom_laplacian.py:145-170. -/
def batch (p : Prim) (dims : Dims) : Prim := ⟨p.id, vmapFn dims p.primal, p.history ++ [dims]⟩

/-! ### Registry, custom_laplacian.py:24-25, 243-259 -/

/-- `_CUSTOM_LAPLACIAN_REGISTRY` and the counter. -/
structure Registry where
  next : ℕ
  rule : ℕ → Option Rule

/-- The registry at import. -/
def Registry.start : Registry := ⟨1, fun _ => none⟩

/-- `create_custom_laplacian_entry`, custom_laplacian.py:243-252: the id and the new registry. -/
def Registry.create (r : Registry) : ℕ × Registry := (r.next, ⟨r.next + 1, fun i => if i = r.next then none else r.rule i⟩)

/-- `set_custom_laplacian_rule`, custom_laplacian.py:255-257 (for an id that exists). -/
def Registry.set (r : Registry) (id : ℕ) (rule : Rule) : Registry := ⟨r.next, fun i => if i = id then some rule else r.rule i⟩

/-- What the program does with decorated functions. -/
inductive Op
  | decorate
  | define (id : ℕ) (rule : Rule)

/-- One operation. -/
def Registry.step (r : Registry) : Op → Registry
  | .decorate => r.create.2
  | .define id rule => r.set id rule

/-! ### Calls -/

/-- What a call of the decorated function gives. -/
inductive Called
  | value (out : List RArr)
  | typeError (names : List String)
  | staged (p : Prim)

/-- `wrapped`, custom_rules.py:110-119: `fn` takes positional and keyword arguments. -/
def call (tracing : Bool) (id : ℕ) (fn : List (String × RArr) → Fn) (args : List RArr) (kwargs : List (String × RArr)) : Called :=
  if !tracing then .value (fn kwargs args)
  else if kwargs ≠ [] then .typeError ((kwargs.map (·.1)).mergeSort (· ≤ ·))
  else .staged (bind (fn []) id)

/-- A program as far as the tracing flag is concerned: calls of decorated functions, `with forward_laplacian_tracing()` blocks, exceptions. -/
inductive Prog
  | done
  | raise
  | call (next : Prog)
  | within (body next : Prog)

/-- `_FORWARD_LAPLACIAN_TRACING.reset(token)`, tracing.py:21: the value before `set`. -/
def reset (token _current : Bool) : Bool := token

/-- Running it, tracing.py:14-26: the flag at the end, the flag each call sees, and whether an exception ended it. -/
def Prog.run : Prog → Bool → Bool × List Bool × Bool
  | .done, f => (f, [], false)
  | .raise, f => (f, [], true)
  | .call k, f => let r := k.run f; (r.1, f :: r.2.1, r.2.2)
  | .within b k, f =>
    let token := f
    let r := b.run true
    let f' := reset token r.1
    if r.2.2 then (f', r.2.1, true) else
      let r2 := k.run f'
      (r2.1, r.2.1 ++ r2.2.1, r2.2.2)

/-- What evaluating the staged primitive gives. -/
inductive Evaluated
  | values (out : List RArr)
  | tracked (out : List Triple)
  /-- handed to the interpreter: the function and the arguments -/
  | auto (fn : Fn) (args : List Arg)
  | error (message : String)

/-- The argument is mapped somewhere and its Jacobian is not an array: `jax.vmap` refuses it. -/
def refused (history : List Dims) (args : List Arg) : Bool :=
  history.any fun dims => (dims.zip args).any fun e => e.1.isSome && e.2.kind = .sparse

/-- `_eval_eqn`, interpreter.py:141-152, and `handle_custom_laplacian`, custom_laplacian.py:196-235. -/
def evaluate (r : Registry) (p : Prim) (args : List Arg) : Evaluated :=
  if args.all fun a => a.kind = .plain then .values (p.primal (args.map (·.x)))
  else match r.rule p.id with
    | none => .error "without a registered def_laplacian_rule"
    | some rule =>
      if refused p.history args then .error "vmap"
      else match replay p.history rule (args.map (·.sig)) with
        | none => .auto p.primal args
        | some run => .tracked (run args)

end Jaqmc.CustomLap
