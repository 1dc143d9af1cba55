/-!
Model of the reference-counted program walker `JaxExprEnvironment` / `eval_jaxpr_with_forward_laplacian`,
`src/jaqmc/laplacian/interpreter.py:38-137`.

The evaluation of one equation (`_eval_eqn`, interpreter.py:140-166, which may itself walk a nested program)
is a parameter of the equation: any function of its input values that may raise.
Simplification: `outvals` is always a list (interpreter.py:133-134 wraps single results).
-/
namespace Jaqmc.Interp

/-- An operand: a literal value or a variable. -/
inductive Atom (V : Type) where
  | lit (v : V)
  | var (x : Nat)

/-- An equation `outvars = eval(invars)`. -/
structure Eqn (V E : Type) where
  invars : List (Atom V)
  outvars : List Nat
  eval : List V → Except E (List V)

/-- A `Jaxpr`. -/
structure Jaxpr (V E : Type) where
  constvars : List Nat
  invars : List Nat
  eqns : List (Eqn V E)
  outvars : List (Atom V)

/-- What can go wrong: an equation raises, or a variable is not in the environment (`KeyError`). -/
inductive Err (E : Type) where
  | raised (e : E)
  | keyError (x : Nat)

variable {V E : Type}

/-- The environment: `env` and `reference_counter` (a `defaultdict(int)`: a missing entry is 0). -/
structure Env (V : Type) where
  env : Nat → Option V
  counter : Nat → Int

/-- `d[x] = v` -/
def upd {A : Type} (f : Nat → A) (x : Nat) (a : A) : Nat → A := fun y => if y = x then a else f y

/-- Number of times variable `x` occurs in a list of operands. -/
def occ (x : Nat) : List (Atom V) → Nat
  | [] => 0
  | .lit _ :: as => occ x as
  | .var y :: as => (if y = x then 1 else 0) + occ x as

/-- `np.iinfo(np.int32).max`, interpreter.py:80. -/
def int32Max : Int := 2147483647

/-- `self.reference_counter[a] += 1` unless `a` is a literal, interpreter.py:72-75. -/
def countRead (c : Nat → Int) : Atom V → Nat → Int
  | .lit _ => c
  | .var x => upd c x (c x + 1)

/-- `self.reference_counter[a] = int32.max` unless `a` is a literal, interpreter.py:77-80. -/
def pin (c : Nat → Int) : Atom V → Nat → Int
  | .lit _ => c
  | .var x => upd c x int32Max

/-- The reference counter built by `__init__`, interpreter.py:65-80: one for every occurrence among the input and
constant variables, one for every read by an equation; output variables are pinned. -/
def initCounter (p : Jaxpr V E) : Nat → Int :=
  let c := (p.invars ++ p.constvars).foldl (fun c x => upd c x (c x + 1)) (fun _ => 0)
  let c := p.eqns.foldl (fun c e => e.invars.foldl countRead c) c
  p.outvars.foldl pin c

/-- `write`, interpreter.py:95-98. -/
def write (s : Env V) (x : Nat) (v : V) : Env V :=
  if s.counter x > 0 then { s with env := upd s.env x (some v) } else s

/-- `write_many`, interpreter.py:104-110 (stops at the shorter list, as `map` does). -/
def writeMany (s : Env V) (xs : List Nat) (vs : List V) : Env V :=
  (xs.zip vs).foldl (fun s p => write s p.1 p.2) s

/-- `read`, interpreter.py:84-93. -/
def read (s : Env V) : Atom V → Except (Err E) (V × Env V)
  | .lit v => .ok (v, s)
  | .var x =>
    let s1 : Env V := { s with counter := upd s.counter x (s.counter x - 1) }
    match s1.env x with
    | none => .error (.keyError x)
    | some v =>
      if s1.counter x = 0 then .ok (v, ⟨upd s1.env x none, upd s1.counter x 0⟩) else .ok (v, s1)

/-- `read_many`, interpreter.py:100-102. -/
def readMany (s : Env V) : List (Atom V) → Except (Err E) (List V × Env V)
  | [] => .ok ([], s)
  | a :: as => do
    let (v, s) ← read s a
    let (vs, s) ← readMany s as
    return (v :: vs, s)

/-- The loop over the equations, interpreter.py:120-135. -/
def walk (s : Env V) : List (Eqn V E) → Except (Err E) (Env V)
  | [] => .ok s
  | e :: es => do
    let (vals, s) ← readMany s e.invars
    let outs ← match e.eval vals with
      | .ok o => .ok o
      | .error err => .error (.raised err)
    walk (writeMany s e.outvars outs) es

/-- The environment built by `__init__`, interpreter.py:59-82. -/
def start (p : Jaxpr V E) (consts args : List V) : Env V :=
  writeMany (writeMany ⟨fun _ => none, initCounter p⟩ p.constvars consts) p.invars args

/-- `eval_jaxpr_with_forward_laplacian`, interpreter.py:113-137; also returns the final environment. -/
def evalJaxpr (p : Jaxpr V E) (consts args : List V) : Except (Err E) (List V × Env V) := do
  let s ← walk (start p consts args) p.eqns
  readMany s p.outvars

end Jaqmc.Interp
