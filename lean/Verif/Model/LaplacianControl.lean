import Verif.Model.LaplacianPrims
import Verif.Spec.Interp
/-!
Model of the program level of the forward-Laplacian transform: traced programs, their plain evaluation, their
evaluation on LapTuples, nested programs (`pjit`), `while` and `scan`.  `src/jaqmc/laplacian/interpreter.py`.
-/
namespace Jaqmc.Laplacian
open Jaqmc.Interp

variable {κ : Type}

/-- One equation of a traced program. -/
structure LEqn (κ : Type) where
  invars : List (Atom Arr)
  outvars : List ℕ
  prim : Prim κ

/-- A closed traced program (`ClosedJaxpr`): the program and its constants. -/
structure Prog (κ : Type) where
  constvars : List ℕ
  consts : List Arr
  invars : List ℕ
  eqns : List (LEqn κ)
  outvars : List (Atom Arr)

/-- The program with the ordinary meaning of its primitives (what `jax.core.eval_jaxpr` runs). -/
def Prog.plainJaxpr (p : Prog κ) : Jaxpr Arr String :=
  ⟨p.constvars, p.invars, p.eqns.map fun e => ⟨e.invars, e.outvars, e.prim.bind⟩, p.outvars⟩

/-- Literals of a program are plain values (`read` returns `var.val`, interpreter.py:86-87). -/
def liftA : Atom Arr → Atom (TVal κ)
  | .lit v => .lit (.plain v)
  | .var x => .var x

/-- The program as the interpreter runs it, interpreter.py:113-166. -/
def Prog.lapJaxpr (p : Prog κ) : Jaxpr (TVal κ) String :=
  ⟨p.constvars, p.invars, p.eqns.map fun e => ⟨e.invars.map liftA, e.outvars, e.prim.evalEqn⟩, p.outvars.map liftA⟩

/-- Errors of a run, as a message. -/
def flatten {A : Type} : Except (Err String) A → Except String A
  | .ok a => .ok a
  | .error (.raised e) => .error e
  | .error (.keyError _) => .error "KeyError"

/-- The ordinary value of a program. -/
def Prog.runPlain (p : Prog κ) (args : List Arr) : Except String (List Arr) :=
  flatten (Interp.Spec.eval p.plainJaxpr p.consts args)

/-- `eval_jaxpr_with_forward_laplacian`, interpreter.py:113-137. -/
def Prog.runLap (p : Prog κ) (args : List (TVal κ)) : Except String (List (TVal κ)) :=
  flatten ((evalJaxpr p.lapJaxpr (p.consts.map .plain) args).map Prod.fst)

/-- What the statement asks of a run from the store `m`: at every equation the values meet the condition of its primitive. -/
def okEqns (m : ℕ → Option Arr) : List (LEqn κ) → Prop
  | [] => True
  | e :: es => ∀ vals, (Interp.Spec.values m e.invars : Except (Err String) _) = .ok vals →
      e.prim.ok vals ∧ ∀ outs, e.prim.bind vals = .ok outs → okEqns (Interp.Spec.bind m e.outvars outs) es

def Prog.okRun (p : Prog κ) (args : List Arr) : Prop :=
  okEqns (Interp.Spec.bind (Interp.Spec.bind (fun _ => none) p.constvars p.consts) p.invars args) p.eqns

/-! ### pjit, interpreter.py:314-331 -/

/-- A nested program whose name has no handler of its own. -/
def pjitPrim (p : Prog κ) : Prim κ := ⟨p.runPlain, p.runLap, p.okRun⟩

/-- `_eval_pjit` with the registry of handlers by name: a registered name wins over the program. -/
def pjitNamed (registry : String → Option (Prim κ)) (name : String) (p : Prog κ) : Prim κ :=
  match registry name with
  | some h => ⟨p.runPlain, h.rule, p.okRun⟩
  | none => pjitPrim p

/-! ### while, interpreter.py:264-311 -/

/-- The boolean result of a condition program. -/
def predOf : Except String (List Arr) → Except String Bool
  | .ok [.disc 1 v] => .ok (v 0 != 0)
  | .ok _ => .error "TypeError"
  | .error e => .error e

/-- `jax.lax.while_loop` on plain values, at most `fuel` iterations. -/
def whilePlain (cond body : List Arr → Except String (List Arr)) (cc bc : List Arr) : ℕ → List Arr → Except String (List Arr)
  | 0, _ => .error "still running"
  | fuel + 1, carry => do
    if ← predOf (cond (cc ++ carry)) then
      whilePlain cond body cc bc fuel (← body (bc ++ carry))
    else return carry

/-- Same kind of value, dtype and size (`jax.lax.while_loop` and `scan` require this of a carry). -/
def sameKind : TVal κ → TVal κ → Bool
  | .plain (.num t _), .plain (.num t' _) => t == t'
  | .plain (.disc n _), .plain (.disc n' _) => n == n'
  | .tracked t _, .tracked t' _ => t == t'
  | _, _ => false

def sameKinds : List (TVal κ) → List (TVal κ) → Bool
  | [], [] => true
  | a :: as, b :: bs => sameKind a b && sameKinds as bs
  | _, _ => false

/-- `_eval_while`: the condition sees values only, the body LapTuples. -/
def whileLap (cond : List (TVal κ) → Except String (List (TVal κ))) (body : List (TVal κ) → Except String (List (TVal κ)))
    (cc bc : List (TVal κ)) : ℕ → List (TVal κ) → Except String (List (TVal κ))
  | 0, _ => .error "still running"
  | fuel + 1, carry => do
    let p ← cond ((cc ++ carry).map fun v => .plain v.primal)
    if ← predOf (.ok (p.map TVal.primal)) then
      let new ← body (bc ++ carry)
      if sameKinds carry new then whileLap cond body cc bc fuel new else .error "TypeError"
    else return carry

/-- At every iteration the condition is locally constant and the body meets its conditions. -/
def okWhile (constCond : List Arr → Prop) (cond body : List Arr → Except String (List Arr)) (okBody : List Arr → Prop)
    (cc bc : List Arr) : ℕ → List Arr → Prop
  | 0, _ => True
  | fuel + 1, carry => constCond (cc ++ carry) ∧ (predOf (cond (cc ++ carry)) = .ok true →
      okBody (bc ++ carry) ∧ ∀ new, body (bc ++ carry) = .ok new → okWhile constCond cond body okBody cc bc fuel new)

/-- A `while` equation: `ncc` constants of the condition, `nbc` of the body, then the carry.  `constCond` is the
requirement of the statement on the condition (local constancy). -/
def whilePrim (constCond : List Arr → Prop) (cond body : Prog κ) (ncc nbc fuel : ℕ) : Prim κ where
  bind vs := whilePlain cond.runPlain body.runPlain (vs.take ncc) ((vs.drop ncc).take nbc) fuel (vs.drop (ncc + nbc))
  rule vs := whileLap cond.runLap body.runLap (vs.take ncc) ((vs.drop ncc).take nbc) fuel (vs.drop (ncc + nbc))
  ok vs := okWhile constCond cond.runPlain body.runPlain body.okRun (vs.take ncc) ((vs.drop ncc).take nbc) fuel
    (vs.drop (ncc + nbc))

/-! ### scan, interpreter.py:169-261 -/

/-- Slice `i` of an array of size `L * m` along its leading axis (`m` elements). -/
def sliceVec {X : Type} {n : ℕ} (L m : ℕ) (h : n = L * m) (i : Fin L) (v : Fin n → X) : Fin m → X :=
  fun j => v ((finProdFinEquiv (i, j)).cast h.symm)

/-- One slice of a scanned input. -/
def sliceArr (L : ℕ) (i : Fin L) : Arr → Except String Arr
  | .num (.real n) v => if h : n = L * (n / L) then .ok (.num (.real (n / L)) (sliceVec L (n / L) h i v)) else .error "shape"
  | .num (.cplx n) v => if h : n = L * (n / L) then .ok (.num (.cplx (n / L)) (sliceVec L (n / L) h i v)) else .error "shape"
  | .disc n v => if h : n = L * (n / L) then .ok (.disc (n / L) (sliceVec L (n / L) h i v)) else .error "shape"

/-- One slice of a scanned LapTuple (the Jacobian is moved so that it is sliced in the same axis, interpreter.py:215-224). -/
def sliceT (L : ℕ) (i : Fin L) : TVal κ → Except String (TVal κ)
  | .plain a => (sliceArr L i a).map .plain
  | .tracked (.real n) a => if h : n = L * (n / L) then
      .ok (.tracked (.real (n / L)) ⟨sliceVec L (n / L) h i a.x, fun k => sliceVec L (n / L) h i (a.jac k), sliceVec L (n / L) h i a.lap⟩)
    else .error "shape"
  | .tracked (.cplx n) a => if h : n = L * (n / L) then
      .ok (.tracked (.cplx (n / L)) ⟨sliceVec L (n / L) h i a.x, fun k => sliceVec L (n / L) h i (a.jac k), sliceVec L (n / L) h i a.lap⟩)
    else .error "shape"

/-- `f` on every element, stopping at the first error. -/
def mapE {A B : Type} (f : A → Except String B) : List A → Except String (List B)
  | [] => .ok []
  | a :: as => do
    let b ← f a
    let bs ← mapE f as
    return b :: bs

/-- Concatenation along the leading axis. -/
def catArr : Arr → Arr → Except String Arr
  | .num (.real n) v, .num (.real m) w => .ok (.num (.real (n + m)) (Fin.append (n := m) v w))
  | .num (.cplx n) v, .num (.cplx m) w => .ok (.num (.cplx (n + m)) (Fin.append (n := m) v w))
  | .disc n v, .disc m w => .ok (.disc (n + m) (Fin.append v w))
  | _, _ => .error "TypeError"

def catT : TVal κ → TVal κ → Except String (TVal κ)
  | .plain a, .plain b => (catArr a b).map .plain
  | .tracked (.real n) a, .tracked (.real m) b => .ok (.tracked (.real (n + m))
      ⟨Fin.append (m := n) (n := m) a.x b.x, fun k => Fin.append (m := n) (n := m) (a.jac k) (b.jac k), Fin.append (m := n) (n := m) a.lap b.lap⟩)
  | .tracked (.cplx n) a, .tracked (.cplx m) b => .ok (.tracked (.cplx (n + m))
      ⟨Fin.append (m := n) (n := m) a.x b.x, fun k => Fin.append (m := n) (n := m) (a.jac k) (b.jac k), Fin.append (m := n) (n := m) a.lap b.lap⟩)
  | _, _ => .error "TypeError"

/-- Elementwise binary operation on two lists of equal length. -/
def zipE {A : Type} (f : A → A → Except String A) : List A → List A → Except String (List A)
  | [], [] => .ok []
  | a :: as, b :: bs => do
    let c ← f a b
    let cs ← zipE f as bs
    return c :: cs
  | _, _ => .error "TypeError"

/-- Stacking the per-step outputs (a scan of length 0 is not modelled). -/
def stackE {A : Type} (f : A → A → Except String A) : List (List A) → Except String (List A)
  | [] => .error "empty scan"
  | [y] => .ok y
  | y :: ys => do
    let r ← stackE f ys
    zipE f y r

/-- The steps of a `scan`: `nc` carries, `check old new` is the comparison of the carries' types. -/
def scanLoop {A : Type} (check : List A → List A → Bool) (body : List A → Except String (List A)) (consts : List A) (nc : ℕ) :
    List (List A) → List A → Except String (List A × List (List A))
  | [], carry => .ok (carry, [])
  | x :: xs, carry => do
    let r ← body (consts ++ carry ++ x)
    if check carry (r.take nc) then
      let (c, ys) ← scanLoop check body consts nc xs (r.take nc)
      return (c, r.drop nc :: ys)
    else .error "TypeError"

/-- `jax.lax.scan`: slices in order (or in reverse), steps, stacked outputs. -/
def scanGen {A : Type} (slice : (L : ℕ) → Fin L → A → Except String A) (cat : A → A → Except String A)
    (check : List A → List A → Bool) (body : List A → Except String (List A)) (nc L : ℕ) (reverse : Bool)
    (consts carry xs : List A) : Except String (List A) := do
  let steps ← mapE (fun i : Fin L => mapE (slice L i) xs)
    (if reverse then (List.finRange L).reverse else List.finRange L)
  let (c, ys) ← scanLoop check body consts nc steps carry
  let y ← stackE cat (if reverse then ys.reverse else ys)
  return c ++ y

/-- `as_laptuple`, interpreter.py:195-206: a plain floating-point carry becomes tracked with zero derivatives. -/
def promote : TVal κ → TVal κ
  | .plain (.num (.real n) v) => .tracked (.real n) ⟨v, fun _ _ => (0 : ℝ), fun _ => (0 : ℝ)⟩
  | .plain (.num (.cplx n) v) => .tracked (.cplx n) ⟨v, fun _ _ => (0 : ℂ), fun _ => (0 : ℂ)⟩
  | v => v

/-- At every step the body meets its conditions. -/
def okScanLoop (body : List Arr → Except String (List Arr)) (okBody : List Arr → Prop) (consts : List Arr) (nc : ℕ) :
    List (List Arr) → List Arr → Prop
  | [], _ => True
  | x :: xs, carry => okBody (consts ++ carry ++ x) ∧
      ∀ r, body (consts ++ carry ++ x) = .ok r → okScanLoop body okBody consts nc xs (r.take nc)

/-- `_eval_scan`, interpreter.py:169-261: only the carries are promoted (interpreter.py:215-219). -/
def scanPrim (body : Prog κ) (nconst nc L : ℕ) (reverse : Bool) : Prim κ where
  bind vs := scanGen sliceArr catArr (fun _ _ => true) body.runPlain nc L reverse (vs.take nconst)
    ((vs.drop nconst).take nc) (vs.drop (nconst + nc))
  rule vs := scanGen sliceT catT sameKinds body.runLap nc L reverse (vs.take nconst)
    (((vs.drop nconst).take nc).map promote) (vs.drop (nconst + nc))
  ok vs := ∀ steps, mapE (fun i : Fin L => mapE (sliceArr L i) (vs.drop (nconst + nc)))
      (if reverse then (List.finRange L).reverse else List.finRange L) = .ok steps →
    okScanLoop body.runPlain body.okRun (vs.take nconst) nc steps ((vs.drop nconst).take nc)

end Jaqmc.Laplacian
