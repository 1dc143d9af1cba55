import Mathlib.Data.List.Basic
/-!
Model of the structural pruning of parameters in stochastic reconfiguration: `get_structural_active_mask`, `get_active_input_positions`,
`get_eqn_active_input_positions`, `active_leaf_indices`, src/jaqmc/optimizer/sr/jasr.py:841-960, on a language of traced programs.

The programs are linearised functions: which branch a `cond` takes and how often a `while` repeats depends on the sample, never on the inputs
(tangents), so these decisions are given by a function `κ` of the place in the program and the iteration.  Constants are literals.  Values are
any type `V` with slicing and stacking for `scan`.
-/
namespace Jaqmc.Prune

/-- What `scan` does to arrays. -/
structure Arrays (V : Type) where
  default : V
  slice : V → ℕ → V
  stack : List V → V

/-- A variable or a constant; `is_jaxpr_var`, jasr.py:930-931, is true of variables only. -/
inductive Atom (V : Type)
  | var (v : ℕ)
  | lit (c : V)

mutual
/-- Primitives: with `branches`, with `jaxpr`/`call_jaxpr`, `scan`, `while`, and all others. -/
inductive Op (V : Type)
  | prim (f : List V → List V)
  | cond (branches : Branches V)
  | call (body : Jaxpr V)
  | scan (consts carry length : ℕ) (body : Jaxpr V)
  | loop (condConsts bodyConsts : ℕ) (cond body : Jaxpr V)
/-- `jaxpr.invars`, `jaxpr.eqns`, `jaxpr.outvars`. -/
inductive Jaxpr (V : Type)
  | mk (ins : List ℕ) (eqns : Eqns V) (outs : List (Atom V))
/-- Equations in order; an output is a variable or dropped. -/
inductive Eqns (V : Type)
  | nil
  | cons (op : Op V) (args : List (Atom V)) (outs : List (Option ℕ)) (rest : Eqns V)
/-- The branches of a `cond`. -/
inductive Branches (V : Type)
  | nil
  | cons (b : Jaxpr V) (rest : Branches V)
end

variable {V : Type}

/-- `jaxpr.outvars`. -/
def Jaxpr.outs : Jaxpr V → List (Atom V)
  | .mk _ _ o => o

/-! ### What a program computes (JAX's semantics) -/

/-- Value of an atom. -/
def Atom.eval (env : ℕ → V) : Atom V → V
  | .var v => env v
  | .lit c => c

/-- Binding variables to values. -/
def bindVars (env : ℕ → V) : List (Option ℕ) → List V → (ℕ → V)
  | some v :: os, x :: xs => bindVars (fun w => if w = v then x else env w) os xs
  | none :: os, _ :: xs => bindVars env os xs
  | _, _ => env

mutual
/-- A primitive on values; a loop with the wrong number of arguments is not a program and yields nothing. -/
def Op.run (A : Arrays V) (κ : List ℕ → ℕ) (path : List ℕ) : Op V → List V → List V
  | .prim f, vs => f vs
  | .cond bs, vs => bs.run A κ path (κ path) vs.tail
  | .call b, vs => b.run A κ path vs
  | .scan nc nk len b, vs =>
    if vs.length < nc + nk ∨ b.outs.length < nk then [] else
    let consts := vs.take nc
    let xs := vs.drop (nc + nk)
    let r := (List.range len).foldl (fun (st : List V × List (List V)) i =>
      let o := b.run A κ (i :: path) (consts ++ st.1 ++ xs.map fun x => A.slice x i)
      (o.take nk, st.2 ++ [o.drop nk])) ((vs.drop nc).take nk, [])
    r.1 ++ (List.range (b.outs.length - nk)).map fun j => A.stack (r.2.map fun o => o.getD j A.default)
  | .loop cn bn _ b, vs =>
    if vs.length ≠ cn + bn + b.outs.length then [] else
    let consts := (vs.drop cn).take bn
    (List.range (κ path)).foldl (fun st i => b.run A κ (i :: path) (consts ++ st)) (vs.drop (cn + bn))
/-- A program on values. -/
def Jaxpr.run (A : Arrays V) (κ : List ℕ → ℕ) (path : List ℕ) : Jaxpr V → List V → List V
  | .mk ins eqns outs, vs => outs.map (Atom.eval (eqns.run A κ path 0 (bindVars (fun _ => A.default) (ins.map some) vs)))
/-- Equations in order. -/
def Eqns.run (A : Arrays V) (κ : List ℕ → ℕ) (path : List ℕ) : ℕ → Eqns V → (ℕ → V) → (ℕ → V)
  | _, .nil, env => env
  | n, .cons op args outs rest, env => rest.run A κ path (n + 1) (bindVars env outs (op.run A κ (n :: path) (args.map (Atom.eval env))))
/-- The chosen branch. -/
def Branches.run (A : Arrays V) (κ : List ℕ → ℕ) (path : List ℕ) : Branches V → ℕ → List V → List V
  | .nil, _, _ => []
  | .cons b _, 0, vs => b.run A κ path vs
  | .cons _ bs, n + 1, vs => bs.run A κ path n vs
end

/-! ### The analysis, jasr.py:856-927 -/

/-- `active.add(...)` for the variables among the arguments at the given positions, jasr.py:880-887. -/
def addArgs (act : ℕ → Bool) (args : List (Atom V)) (pos : ℕ → Bool) : ℕ → Bool :=
  fun v => act v || (List.range args.length).any fun p => pos p && match args[p]? with | some (.var w) => w == v | _ => false

/-- Positions of the active outputs of an equation, jasr.py:869-873. -/
def outPositions (act : ℕ → Bool) (outs : List (Option ℕ)) (p : ℕ) : Bool :=
  match outs[p]? with
  | some (some v) => act v
  | _ => false

mutual
/-- `get_eqn_active_input_positions`, jasr.py:892-927. -/
def Op.active : Op V → (ℕ → Bool) → Option (ℕ → Bool)
  | .prim _, _ => none
  | .cond bs, pos => some fun p => decide (1 ≤ p) && bs.active pos (p - 1)
  | .call b, pos => some (b.active pos)
  | .scan _ _ _ b, pos => some (b.active pos)
  | .loop _ _ c b, _ => some fun p => c.active (fun _ => true) p || b.active (fun _ => true) p
/-- `get_active_input_positions`, jasr.py:856-889; `None` for the outputs is all of them. -/
def Jaxpr.active : Jaxpr V → (ℕ → Bool) → (ℕ → Bool)
  | .mk ins eqns outs, pos =>
    let act := eqns.back (addArgs (fun _ => false) outs pos)
    fun i => match ins[i]? with | some v => act v | none => false
/-- The loop over the equations from the last to the first, jasr.py:868-887. -/
def Eqns.back : Eqns V → (ℕ → Bool) → (ℕ → Bool)
  | .nil, act => act
  | .cons op args outs rest, act =>
    let a := rest.back act
    let pos := outPositions a outs
    if (List.range outs.length).any pos then
      match op.active pos with
      | none => addArgs a args fun _ => true
      | some q => addArgs a args q
    else a
/-- The union over the branches, jasr.py:900-907. -/
def Branches.active : Branches V → (ℕ → Bool) → (ℕ → Bool)
  | .nil, _ => fun _ => false
  | .cons b bs, pos => fun i => b.active pos i || bs.active pos i
end

/-- `get_structural_active_mask`, jasr.py:841-853, for the linearised program of a function with `n` parameter leaves. -/
def mask (prog : Jaxpr V) (n : ℕ) : List Bool := (List.range n).map fun i => prog.active (fun _ => true) i

/-- `active_leaf_indices`, jasr.py:940-956: the loop with `start`; `leaves` are sizes with the mask. -/
def leafIndices : ℕ → List (ℕ × Bool) → List ℕ
  | _, [] => []
  | start, (size, on) :: ls => (if on then (List.range size).map (start + ·) else []) ++ leafIndices (start + size) ls

end Jaqmc.Prune
