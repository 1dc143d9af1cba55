import Verif.Model.LaplacianPrims
/-!
Model of the primitives that are linear in their floating-point arguments once dtypes, shapes and integer arguments are
fixed: `neg`, `sub`, `reshape`, `transpose`, `broadcast_in_dim`, `slice`, `squeeze`, `expand_dims`, `rev`, `concatenate`,
`pad`, `reduce_sum`, `cumsum`, `gather`, `dynamic_slice`, `scatter_add`, `select_n`.  All are handled by `wrap_linear`
on dense LapTuples (arithmetic.py:190-262, shape.py:43-626, reductions.py:25-144, indexing.py:135-214,
selection.py:125-205).
-/
namespace Jaqmc.Laplacian

/-- What a primitive may base its layout on: dtype and size of floating-point arguments, contents of integer ones. -/
inductive Shape where
  | num (t : Ty)
  | disc (n : ℕ) (v : Fin n → ℤ)

def Arr.shape : Arr → Shape
  | .num t _ => .num t
  | .disc n v => .disc n v

/-- Element `i` of the result is the sum over the arguments `p` and their elements `j` of `c p i j` times the element
(real arguments). -/
noncomputable def linR (c : ℕ → ℕ → ℕ → ℝ) (out : ℕ) : ℕ → List Arr → Except String (Fin out → ℝ)
  | _, [] => .ok 0
  | p, .disc _ _ :: as => linR c out (p + 1) as
  | p, .num (.real n) v :: as => (linR c out (p + 1) as).map fun w i => (∑ j : Fin n, c p i j * (v : Fin n → ℝ) j) + w i
  | _, .num (.cplx _) _ :: _ => .error "TypeError"

/-- The same for complex arguments. -/
noncomputable def linC (c : ℕ → ℕ → ℕ → ℝ) (out : ℕ) : ℕ → List Arr → Except String (Fin out → ℂ)
  | _, [] => .ok 0
  | p, .disc _ _ :: as => linC c out (p + 1) as
  | p, .num (.cplx n) v :: as => (linC c out (p + 1) as).map fun w i => (∑ j : Fin n, (c p i j : ℂ) * (v : Fin n → ℂ) j) + w i
  | _, .num (.real _) _ :: _ => .error "TypeError"

/-- A layout gives the size of the result and the coefficients. -/
abbrev Layout := List Shape → Except String (ℕ × (ℕ → ℕ → ℕ → ℝ))

def Shape.isCplx : Shape → Bool
  | .num (.cplx _) => true
  | _ => false

/-- A linear primitive with a given layout. -/
noncomputable def linBind (lay : Layout) (as : List Arr) : Except String (List Arr) :=
  match lay (as.map Arr.shape) with
  | .error e => .error e
  | .ok (out, c) =>
    if (as.map Arr.shape).any Shape.isCplx then (linC c out 0 as).map fun w => [.num (.cplx out) w]
    else (linR c out 0 as).map fun w => [.num (.real out) w]

/-! ### Layouts of concrete primitives -/

/-- `neg` -/
def negLay : Layout
  | [.num t] => .ok (t.size, fun _ i j => if i = j then -1 else 0)
  | _ => .error "TypeError"

/-- `sub`, with broadcasting of a scalar. -/
def subLay : Layout
  | [.num t, .num u] => match bsize t.size u.size with
    | some s => .ok (s, fun p i j =>
        let n := if p = 0 then t.size else u.size
        (if n = 1 ∨ i = j then 1 else 0) * (if p = 0 then 1 else -1))
    | none => .error "incompatible shapes"
  | _ => .error "TypeError"

/-- Every element of the result is an element of the argument: `reshape`, `transpose`, `broadcast_in_dim`, `slice`,
`squeeze`, `expand_dims`, `rev`, static `gather`. -/
def takeLay (out : ℕ) (f : ℕ → ℕ) : Layout
  | [.num _] => .ok (out, fun _ i j => if f i = j then 1 else 0)
  | _ => .error "TypeError"

/-- `gather` with an integer index array: element `f i` of the index array says which element is taken. -/
def gatherLay (out : ℕ) (f : List ℤ → ℕ → ℕ) : Layout
  | [.num _, .disc n v] => .ok (out, fun _ i j => if f (List.ofFn (n := n) v) i = j then 1 else 0)
  | _ => .error "TypeError"

/-- `reduce_sum`: element `j` is added to element `f j` of the result. -/
def sumLay (out : ℕ) (f : ℕ → ℕ) : Layout
  | [.num _] => .ok (out, fun _ i j => if i = f j then 1 else 0)
  | _ => .error "TypeError"

/-- `concatenate` along the leading axis. -/
def concatLay : Layout := fun ss =>
  let sizes := ss.map fun | .num t => t.size | .disc n _ => n
  .ok (sizes.sum, fun p i j => if i = (sizes.take p).sum + j then 1 else 0)

/-- `select_n` with an integer selector of the size of the cases (or a scalar). -/
def selectLay : Layout
  | .disc n w :: .num t :: _ => .ok (t.size, fun p i j => if i = j then
      (if h : 0 < n then (if w ⟨if n = 1 then 0 else i % n, by split; exact h; exact Nat.mod_lt _ h⟩ + 1 = p then 1 else 0) else 0) else 0)
  | _ => .error "TypeError"

end Jaqmc.Laplacian
