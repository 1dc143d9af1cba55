import Mathlib.Analysis.SpecialFunctions.Trigonometric.Deriv
import Mathlib.Analysis.SpecialFunctions.Pow.Complex
import Verif.Model.Laplacian
/-!
Model of the forward-Laplacian handlers for the primitives with rules of their own, `src/jaqmc/laplacian/primitives/`.
Dense Jacobians only (see `Model/Laplacian.lean` for the conventions).
-/
namespace Jaqmc.Laplacian

variable {κ : Type}

/-! ### Real and complex arrays, uniformly -/

/-- A flattened array of any size over `𝕜`. -/
abbrev Vec (𝕜 : Type) := (n : ℕ) × (Fin n → 𝕜)

/-- A handler argument over `𝕜`: a plain array or a LapTuple. -/
inductive Operand (κ 𝕜 : Type) where
  | plain (v : Vec 𝕜)
  | tracked (n : ℕ) (a : Lap κ (Fin n → 𝕜))

def Operand.primal {𝕜 : Type} : Operand κ 𝕜 → Vec 𝕜
  | .plain v => v
  | .tracked n a => ⟨n, a.x⟩

def Arr.real? : Arr → Option (Vec ℝ)
  | .num (.real n) v => some ⟨n, v⟩
  | _ => none

def Arr.cplx? : Arr → Option (Vec ℂ)
  | .num (.cplx n) v => some ⟨n, v⟩
  | _ => none

def Arr.ofReal (v : Vec ℝ) : Arr := .num (.real v.1) v.2
def Arr.ofCplx (v : Vec ℂ) : Arr := .num (.cplx v.1) v.2

def TVal.real? : TVal κ → Option (Operand κ ℝ)
  | .plain (.num (.real n) v) => some (.plain ⟨n, v⟩)
  | .tracked (.real n) a => some (.tracked n a)
  | _ => none

def TVal.cplx? : TVal κ → Option (Operand κ ℂ)
  | .plain (.num (.cplx n) v) => some (.plain ⟨n, v⟩)
  | .tracked (.cplx n) a => some (.tracked n a)
  | _ => none

def TVal.ofReal : Operand κ ℝ → TVal κ
  | .plain v => .plain (Arr.ofReal v)
  | .tracked n a => .tracked (.real n) a

def TVal.ofCplx : Operand κ ℂ → TVal κ
  | .plain v => .plain (Arr.ofCplx v)
  | .tracked n a => .tracked (.cplx n) a

/-- A binary primitive that requires equal dtypes. -/
def bindBin (fr : Vec ℝ → Vec ℝ → Except String (Vec ℝ)) (fc : Vec ℂ → Vec ℂ → Except String (Vec ℂ)) :
    List Arr → Except String (List Arr)
  | [a, b] => match a.real?, b.real? with
    | some a, some b => (fr a b).map fun v => [Arr.ofReal v]
    | _, _ => match a.cplx?, b.cplx? with
      | some a, some b => (fc a b).map fun v => [Arr.ofCplx v]
      | _, _ => .error "TypeError"
  | _ => .error "TypeError"

/-- Its handler. -/
def ruleBin (hr : Operand κ ℝ → Operand κ ℝ → Except String (Operand κ ℝ))
    (hc : Operand κ ℂ → Operand κ ℂ → Except String (Operand κ ℂ)) :
    List (TVal κ) → Except String (List (TVal κ))
  | [a, b] => match a.real?, b.real? with
    | some a, some b => (hr a b).map fun v => [TVal.ofReal v]
    | _, _ => match a.cplx?, b.cplx? with
      | some a, some b => (hc a b).map fun v => [TVal.ofCplx v]
      | _, _ => .error "TypeError"
  | _ => .error "TypeError"

/-- A unary primitive on floating-point arrays that keeps the dtype. -/
def bindUn (fr : Vec ℝ → Except String (Vec ℝ)) (fc : Vec ℂ → Except String (Vec ℂ)) :
    List Arr → Except String (List Arr)
  | [a] => match a.real? with
    | some a => (fr a).map fun v => [Arr.ofReal v]
    | none => match a.cplx? with
      | some a => (fc a).map fun v => [Arr.ofCplx v]
      | none => .error "TypeError"
  | _ => .error "TypeError"

/-- Its handler. -/
def ruleUn (hr : Operand κ ℝ → Except String (Operand κ ℝ)) (hc : Operand κ ℂ → Except String (Operand κ ℂ)) :
    List (TVal κ) → Except String (List (TVal κ))
  | [a] => match a.real? with
    | some a => (hr a).map fun v => [TVal.ofReal v]
    | none => match a.cplx? with
      | some a => (hc a).map fun v => [TVal.ofCplx v]
      | none => .error "TypeError"
  | _ => .error "TypeError"

/-! ### Broadcasting: JAX programs contain binary operations on equal shapes, or with a scalar -/

/-- Size of the result. -/
def bsize (n m : ℕ) : Option ℕ := if n = m then some n else if n = 1 then some m else if m = 1 then some n else none

/-- Element `i` of an array of size `n` broadcast to a larger size (`broadcast_dense_jacobian`, core.py:87-110, does this
for every row of a Jacobian). -/
def bc {𝕜 : Type} [Zero 𝕜] {n s : ℕ} (v : Fin n → 𝕜) (i : Fin s) : 𝕜 :=
  if h : n = 1 then v ⟨0, by omega⟩ else if h : i.val < n then v ⟨i.val, h⟩ else 0

/-- A broadcasting binary operation. -/
def elementwise2 {𝕜 : Type} [Zero 𝕜] (f : 𝕜 → 𝕜 → 𝕜) (a b : Vec 𝕜) : Except String (Vec 𝕜) :=
  match bsize a.1 b.1 with
  | none => .error "incompatible shapes"
  | some s => .ok ⟨s, fun i => f (bc a.2 i) (bc b.2 i)⟩

/-! ### Multiplication -/

section field
variable {𝕜 : Type} [Field 𝕜] [Fintype κ]

/-- `wrap_multiplication`, core.py:429-483, on dense operands: with one tracked argument the other factor (obtained by
applying the primitive to ones) scales everything; with two, the product rule. -/
def mulOp : Operand κ 𝕜 → Operand κ 𝕜 → Except String (Operand κ 𝕜)
  | .plain a, .plain b => (elementwise2 (· * ·) a b).map .plain
  | .tracked n a, .plain b => match bsize n b.1 with
    | none => .error "incompatible shapes"
    | some s =>
      let mult : Fin s → 𝕜 := fun i => bc (fun _ : Fin n => (1 : 𝕜)) i * bc b.2 i
      .ok (.tracked s ⟨fun i => bc a.x i * bc b.2 i, fun k i => bc (a.jac k) i * mult i, fun i => bc a.lap i * mult i⟩)
  | .plain a, .tracked n b => match bsize a.1 n with
    | none => .error "incompatible shapes"
    | some s =>
      let mult : Fin s → 𝕜 := fun i => bc a.2 i * bc (fun _ : Fin n => (1 : 𝕜)) i
      .ok (.tracked s ⟨fun i => bc a.2 i * bc b.x i, fun k i => bc (b.jac k) i * mult i, fun i => bc b.lap i * mult i⟩)
  | .tracked n a, .tracked m b => match bsize n m with
    | none => .error "incompatible shapes"
    | some s => .ok (.tracked s ⟨fun i => bc a.x i * bc b.x i,
        fun k i => bc (a.jac k) i * bc b.x i + bc (b.jac k) i * bc a.x i,
        fun i => bc a.lap i * bc b.x i + bc b.lap i * bc a.x i + 2 * ∑ k, bc (a.jac k) i * bc (b.jac k) i⟩)

end field

/-- `mul` -/
noncomputable def mulBind : List Arr → Except String (List Arr) := bindBin (elementwise2 (· * ·)) (elementwise2 (· * ·))

/-- `handle_mul`, arithmetic.py:353-403, on dense arguments. -/
noncomputable def mulRule [Fintype κ] : List (TVal κ) → Except String (List (TVal κ)) := ruleBin mulOp mulOp

/-! ### Division -/

section nfield
variable {𝕜 : Type} [NontriviallyNormedField 𝕜] [Fintype κ]

/-- `handle_div`, arithmetic.py:497-547, on dense operands: the derivative of the quotient by `dense_jvp` (for a
holomorphic function JAX's vector products give the complex derivative), and the closed form of the Hessian term.
`same` says that the numerator array and the value of the tracked denominator are the same Python object: then the test
`dense_args.x[0] is x_val` (arithmetic.py:528) takes the denominator for the numerator and leaves the Hessian term out. -/
noncomputable def divOp (same : Bool) : Operand κ 𝕜 → Operand κ 𝕜 → Except String (Operand κ 𝕜)
  | .plain a, .plain b => (elementwise2 (· / ·) a b).map .plain
  | .tracked n a, .plain b => match bsize n b.1 with
    | none => .error "incompatible shapes"
    | some s =>
      let D : Fin s → 𝕜 := fun i => deriv (fun t => t / bc b.2 i) (bc a.x i)
      .ok (.tracked s ⟨fun i => bc a.x i / bc b.2 i, fun k i => D i * bc (a.jac k) i, fun i => D i * bc a.lap i⟩)
  | .plain a, .tracked n b => match bsize a.1 n with
    | none => .error "incompatible shapes"
    | some s =>
      let D : Fin s → 𝕜 := fun i => deriv (fun t => bc a.2 i / t) (bc b.x i)
      .ok (.tracked s ⟨fun i => bc a.2 i / bc b.x i, fun k i => D i * bc (b.jac k) i,
        fun i => D i * bc b.lap i +
          if same then 0 else 2 * bc a.2 i / bc b.x i ^ 3 * ∑ k, bc (b.jac k) i * bc (b.jac k) i⟩)
  | .tracked n a, .tracked m b => match bsize n m with
    | none => .error "incompatible shapes"
    | some s =>
      let D1 : Fin s → 𝕜 := fun i => deriv (fun t => t / bc b.x i) (bc a.x i)
      let D2 : Fin s → 𝕜 := fun i => deriv (fun t => bc a.x i / t) (bc b.x i)
      .ok (.tracked s ⟨fun i => bc a.x i / bc b.x i, fun k i => D1 i * bc (a.jac k) i + D2 i * bc (b.jac k) i,
        fun i => D1 i * bc a.lap i + D2 i * bc b.lap i +
          (2 * bc a.x i / bc b.x i ^ 3 * (∑ k, bc (b.jac k) i * bc (b.jac k) i) -
            2 / bc b.x i ^ 2 * ∑ k, bc (a.jac k) i * bc (b.jac k) i)⟩)

end nfield

/-- `div` -/
noncomputable def divBind : List Arr → Except String (List Arr) := bindBin (elementwise2 (· / ·)) (elementwise2 (· / ·))

/-- `handle_div`; `same`: see `divOp`. -/
noncomputable def divRule [Fintype κ] (same : Bool) : List (TVal κ) → Except String (List (TVal κ)) :=
  ruleBin (divOp same) (divOp same)

/-! ### Elementwise functions -/

/-- The functions registered with `make_unary_elementwise_sparse_handler`, elementwise.py:148-181. -/
inductive Fn where
  | exp | log | sin | cos | sqrt | integerPow (k : ℤ) | logistic | rsqrt | log1p | expm1 | tan | asin | acos | atan | tanh
  | square | softplus | silu

/-- What they compute on real numbers. -/
noncomputable def Fn.real : Fn → ℝ → ℝ
  | .exp => Real.exp
  | .log => Real.log
  | .sin => Real.sin
  | .cos => Real.cos
  | .sqrt => Real.sqrt
  | .integerPow k => fun x => x ^ k
  | .logistic => fun x => 1 / (1 + Real.exp (-x))
  | .rsqrt => fun x => 1 / Real.sqrt x
  | .log1p => fun x => Real.log (1 + x)
  | .expm1 => fun x => Real.exp x - 1
  | .tan => Real.tan
  | .asin => Real.arcsin
  | .acos => Real.arccos
  | .atan => Real.arctan
  | .tanh => Real.tanh
  | .square => fun x => x * x
  | .softplus => fun x => Real.log (1 + Real.exp x)
  | .silu => fun x => x * (1 / (1 + Real.exp (-x)))

/-- What they compute on complex numbers (`none`: not modelled). -/
noncomputable def Fn.cplx : Fn → Option (ℂ → ℂ)
  | .exp => some Complex.exp
  | .log => some Complex.log
  | .sin => some Complex.sin
  | .cos => some Complex.cos
  | .sqrt => some fun z => z ^ (1 / 2 : ℂ)
  | .integerPow k => some fun z => z ^ k
  | .logistic => some fun z => 1 / (1 + Complex.exp (-z))
  | .rsqrt => some fun z => z ^ (-1 / 2 : ℂ)
  | .log1p => some fun z => Complex.log (1 + z)
  | .expm1 => some fun z => Complex.exp z - 1
  | .tan => some Complex.tan
  | .tanh => some Complex.tanh
  | .square => some fun z => z * z
  | .silu => some fun z => z * (1 / (1 + Complex.exp (-z)))
  | .asin | .acos | .atan | .softplus => none

/-- First and second derivatives as the handler obtains them.  Real input: `jax.vjp` and nested `jax.jvp`
(jvp.py:61, hessian.py:154-157). -/
noncomputable def d1Real (f : ℝ → ℝ) (x : ℝ) : ℝ := deriv f x
noncomputable def d2Real (f : ℝ → ℝ) (x : ℝ) : ℝ := deriv (deriv f) x

/-- Complex input: `jax.vjp` with cotangent 1 (jvp.py:61), nested `jax.jvp` in direction 1 (hessian.py:154-157). -/
noncomputable def d1Cplx (f : ℂ → ℂ) (z : ℂ) : ℂ := jaxGrad (fderiv ℝ f z 1) (fderiv ℝ f z Complex.I)
noncomputable def d2Cplx (f : ℂ → ℂ) (z : ℂ) : ℂ := fderiv ℝ (fun w => fderiv ℝ f w 1) z 1

/-- `wrap_elementwise`, core.py:349-392, with `dense_elementwise_jvp` (jvp.py:30-64) and
`elementwise_jac_hessian_jac` (hessian.py:136-158). -/
def elementwiseOp {𝕜 : Type} [Semiring 𝕜] [Fintype κ] (f d1 d2 : 𝕜 → 𝕜) : Operand κ 𝕜 → Except String (Operand κ 𝕜)
  | .plain v => .ok (.plain ⟨v.1, fun i => f (v.2 i)⟩)
  | .tracked n a => .ok (.tracked n ⟨fun i => f (a.x i), fun k i => d1 (a.x i) * a.jac k i,
      fun i => d1 (a.x i) * a.lap i + d2 (a.x i) * ∑ k, a.jac k i * a.jac k i⟩)

def mapVec {𝕜 : Type} (f : 𝕜 → 𝕜) (v : Vec 𝕜) : Except String (Vec 𝕜) := .ok ⟨v.1, fun i => f (v.2 i)⟩

noncomputable def fnBind (f : Fn) : List Arr → Except String (List Arr) :=
  bindUn (mapVec f.real) (match f.cplx with | some g => mapVec g | none => fun _ => .error "not modelled")

noncomputable def fnRule [Fintype κ] (f : Fn) : List (TVal κ) → Except String (List (TVal κ)) :=
  ruleUn (elementwiseOp f.real (d1Real f.real) (d2Real f.real))
    (match f.cplx with | some g => elementwiseOp g (d1Cplx g) (d2Cplx g) | none => fun _ => .error "not modelled")

/-! ### dot_general -/

/-- The index structure of one `dot_general` (dimension numbers applied to the operand shapes, flattened):
output element `o` is the sum over `c` of `lhs[li o c] * rhs[ri o c]`. -/
structure DotDims where
  n : ℕ
  m : ℕ
  out : ℕ
  contr : ℕ
  li : Fin out → Fin contr → Fin n
  ri : Fin out → Fin contr → Fin m

/-- `jax.lax.dot_general` on the flattened operands. -/
def dot {𝕜 : Type} [CommSemiring 𝕜] (D : DotDims) (a : Fin D.n → 𝕜) (b : Fin D.m → 𝕜) : Fin D.out → 𝕜 :=
  fun o => ∑ c, a (D.li o c) * b (D.ri o c)

/-- An array of size `n`, if that is its size. -/
def fit {X : Type} {n : ℕ} (m : ℕ) (v : Fin n → X) : Option (Fin m → X) :=
  if h : n = m then some fun i => v (i.cast h.symm) else none

def fitLap {𝕜 : Type} {n : ℕ} (m : ℕ) (a : Lap κ (Fin n → 𝕜)) : Option (Lap κ (Fin m → 𝕜)) :=
  if h : n = m then some ⟨fun i => a.x (i.cast h.symm), fun k i => a.jac k (i.cast h.symm), fun i => a.lap (i.cast h.symm)⟩
  else none

def dotVec {𝕜 : Type} [CommSemiring 𝕜] (D : DotDims) (a b : Vec 𝕜) : Except String (Vec 𝕜) :=
  match fit D.n a.2, fit D.m b.2 with
  | some a, some b => .ok ⟨D.out, dot D a b⟩
  | _, _ => .error "shape mismatch"

/-- `_handle_dense_dot_general`, dot_general.py:322-470: linear in a single tracked operand, bilinear with a mixed trace
for two. -/
def dotOp {𝕜 : Type} [CommSemiring 𝕜] [Fintype κ] (D : DotDims) : Operand κ 𝕜 → Operand κ 𝕜 → Except String (Operand κ 𝕜)
  | .plain a, .plain b => (dotVec D a b).map .plain
  | .tracked _ a, .plain b => match fitLap D.n a, fit D.m b.2 with
    | some a, some b => .ok (.tracked D.out ⟨dot D a.x b, fun k => dot D (a.jac k) b, dot D a.lap b⟩)
    | _, _ => .error "shape mismatch"
  | .plain a, .tracked _ b => match fit D.n a.2, fitLap D.m b with
    | some a, some b => .ok (.tracked D.out ⟨dot D a b.x, fun k => dot D a (b.jac k), dot D a b.lap⟩)
    | _, _ => .error "shape mismatch"
  | .tracked _ a, .tracked _ b => match fitLap D.n a, fitLap D.m b with
    | some a, some b => .ok (.tracked D.out ⟨dot D a.x b.x, fun k => dot D (a.jac k) b.x + dot D a.x (b.jac k),
        dot D a.lap b.x + dot D a.x b.lap + 2 * ∑ k, dot D (a.jac k) (b.jac k)⟩)
    | _, _ => .error "shape mismatch"

noncomputable def dotBind (D : DotDims) : List Arr → Except String (List Arr) := bindBin (dotVec D) (dotVec D)

noncomputable def dotRule [Fintype κ] (D : DotDims) : List (TVal κ) → Except String (List (TVal κ)) := ruleBin (dotOp D) (dotOp D)

/-! ### Complex components, dtype conversion, absolute value -/

/-- A function applied to every element. -/
def mapLap {X Y : Type} {n : ℕ} (f : X → Y) (a : Lap κ (Fin n → X)) : Lap κ (Fin n → Y) :=
  ⟨fun i => f (a.x i), fun k i => f (a.jac k i), fun i => f (a.lap i)⟩

/-- `conj`, on complex arrays. -/
def conjBind : List Arr → Except String (List Arr)
  | [.num (.cplx n) v] => .ok [.num (.cplx n) fun i : Fin n => (starRingEnd ℂ) (v i)]
  | _ => .error "TypeError"

/-- `real` -/
def realBind : List Arr → Except String (List Arr)
  | [.num (.cplx n) v] => .ok [.num (.real n) fun i : Fin n => (v i).re]
  | _ => .error "TypeError"

/-- `imag` -/
def imagBind : List Arr → Except String (List Arr)
  | [.num (.cplx n) v] => .ok [.num (.real n) fun i : Fin n => (v i).im]
  | _ => .error "TypeError"

/-- `wrap_componentwise`, core.py:486-516, for `conj`, `real`, `imag` (complex.py:54-57). -/
def conjRule : List (TVal κ) → Except String (List (TVal κ))
  | [.tracked (.cplx n) a] => .ok [.tracked (.cplx n) (mapLap (n := n) (starRingEnd ℂ) a)]
  | _ => .error "TypeError"

def realRule : List (TVal κ) → Except String (List (TVal κ))
  | [.tracked (.cplx n) a] => .ok [.tracked (.real n) (mapLap (n := n) Complex.re a)]
  | _ => .error "TypeError"

def imagRule : List (TVal κ) → Except String (List (TVal κ))
  | [.tracked (.cplx n) a] => .ok [.tracked (.real n) (mapLap (n := n) Complex.im a)]
  | _ => .error "TypeError"

/-- `convert_element_type` to a complex dtype. -/
def toCplxBind : List Arr → Except String (List Arr)
  | [.num (.real n) v] => .ok [.num (.cplx n) fun i : Fin n => ((v i : ℝ) : ℂ)]
  | [.num (.cplx n) v] => .ok [.num (.cplx n) v]
  | [.disc n v] => .ok [.num (.cplx n) fun i : Fin n => ((v i : ℤ) : ℂ)]
  | _ => .error "TypeError"

/-- `convert_element_type` to a real floating dtype (a complex array loses its imaginary part). -/
def toRealBind : List Arr → Except String (List Arr)
  | [.num (.real n) v] => .ok [.num (.real n) v]
  | [.num (.cplx n) v] => .ok [.num (.real n) fun i : Fin n => (v i).re]
  | [.disc n v] => .ok [.num (.real n) fun i : Fin n => ((v i : ℤ) : ℝ)]
  | _ => .error "TypeError"

/-- `convert_element_type` to an integer dtype: truncation towards zero. -/
noncomputable def toDiscBind : List Arr → Except String (List Arr)
  | [.num (.real n) v] => .ok [.disc n fun i : Fin n => if (v i : ℝ) < 0 then ⌈(v i : ℝ)⌉ else ⌊(v i : ℝ)⌋]
  | [.num (.cplx n) v] => .ok [.disc n fun i : Fin n => if (v i).re < 0 then ⌈(v i).re⌉ else ⌊(v i).re⌋]
  | [.disc n v] => .ok [.disc n v]
  | _ => .error "TypeError"

/-- `handle_convert_element_type`, dtype.py:22-39, with `LapTuple.astype`, types.py:88-104: all three components are
converted; a non-floating target drops the derivatives. -/
def toCplxRule : List (TVal κ) → Except String (List (TVal κ))
  | [.tracked (.real n) a] => .ok [.tracked (.cplx n) (mapLap (n := n) (fun x : ℝ => (x : ℂ)) a)]
  | [.tracked (.cplx n) a] => .ok [.tracked (.cplx n) a]
  | [.plain a] => (toCplxBind [a]).map (List.map .plain)
  | _ => .error "TypeError"

def toRealRule : List (TVal κ) → Except String (List (TVal κ))
  | [.tracked (.real n) a] => .ok [.tracked (.real n) a]
  | [.tracked (.cplx n) a] => .ok [.tracked (.real n) (mapLap (n := n) Complex.re a)]
  | [.plain a] => (toRealBind [a]).map (List.map .plain)
  | _ => .error "TypeError"

noncomputable def toDiscRule : List (TVal κ) → Except String (List (TVal κ)) := wrapBarrier toDiscBind

/-- `add` -/
def addBind : List Arr → Except String (List Arr) := bindBin (elementwise2 (· + ·)) (elementwise2 (· + ·))

/-- `handle_add` on dense arguments, arithmetic.py:178-187. -/
noncomputable def addRule [Fintype κ] : List (TVal κ) → Except String (List (TVal κ)) := wrapLinear addBind

/-- `complex(real, imag)` -/
noncomputable def complexBind : List Arr → Except String (List Arr)
  | [.num (.real n) u, .num (.real m) v] => if h : m = n then
      .ok [.num (.cplx n) fun i : Fin n => ⟨u i, (v : Fin m → ℝ) (i.cast h.symm)⟩] else .error "incompatible shapes"
  | _ => .error "TypeError"

/-- The constant `1j`. -/
noncomputable def oneJ : Arr := .num (.cplx 1) fun _ : Fin 1 => Complex.I

/-- `handle_complex`, complex.py:24-51: convert both parts, multiply the second by `1j`, add; then put in the exact
value. -/
noncomputable def complexRule [Fintype κ] : List (TVal κ) → Except String (List (TVal κ))
  | [re, im] => do
    let rc ← toCplxRule [re]
    let ic ← toCplxRule [im]
    let sc ← match ic with
      | [i] => mulRule [i, .plain oneJ]
      | _ => .error "TypeError"
    let res ← match rc, sc with
      | [r], [s] => addRule [r, s]
      | _, _ => .error "TypeError"
    let val ← complexBind [re.primal, im.primal]
    match res, val with
    | [.tracked t a], [.num t' v] => if h : t' = t then .ok [.tracked t { a with x := h ▸ v }] else .error "TypeError"
    | _, _ => .error "TypeError"
  | _ => .error "TypeError"

/-- `abs` -/
noncomputable def absBind : List Arr → Except String (List Arr)
  | [.num (.real n) v] => .ok [.num (.real n) fun i : Fin n => |(v i : ℝ)|]
  | [.num (.cplx n) v] => .ok [.num (.real n) fun i : Fin n => ‖(v i : ℂ)‖]
  | _ => .error "TypeError"

/-- The complex branch of `handle_abs`, elementwise.py:80-125: the radial projection of the Jacobian and the curvature
term. -/
noncomputable def absLap [Fintype κ] {n : ℕ} (a : Lap κ (Fin n → ℂ)) : Lap κ (Fin n → ℝ) :=
  let y : Fin n → ℝ := fun i => ‖a.x i‖
  let radial : κ → Fin n → ℝ := fun k i => ((a.x i).re * (a.jac k i).re + (a.x i).im * (a.jac k i).im) / y i
  ⟨y, radial, fun i => ((a.x i).re * (a.lap i).re + (a.x i).im * (a.lap i).im) / y i +
    ((∑ k, ‖a.jac k i‖ ^ 2) - ∑ k, radial k i ^ 2) / y i⟩

/-- `handle_abs`, elementwise.py:74-131; real arrays use `wrap_linear`. -/
noncomputable def absRule [Fintype κ] : List (TVal κ) → Except String (List (TVal κ))
  | [.tracked (.cplx n) a] => .ok [.tracked (.real n) (absLap (n := n) a)]
  | [.tracked (.real n) a] => wrapLinear absBind [.tracked (.real n) a]
  | _ => .error "TypeError"

/-! ### slogdet -/

/-- A batch of `b` matrices of size `n`, stored in row-major order. -/
def toMat {𝕜 : Type} {b n : ℕ} (v : Fin (b * (n * n)) → 𝕜) (β : Fin b) : Matrix (Fin n) (Fin n) 𝕜 :=
  fun i j => v (finProdFinEquiv (β, finProdFinEquiv (i, j)))

/-- `jnp.linalg.slogdet` of real matrices: sign and logarithm of the absolute value. -/
noncomputable def slogdetReal {b n : ℕ} (v : Fin (b * (n * n)) → ℝ) : List Arr :=
  [.num (.real b) fun β : Fin b => SignType.sign (toMat v β).det, .num (.real b) fun β : Fin b => Real.log |(toMat v β).det|]

/-- Complex matrices: phase factor and logarithm of the modulus. -/
noncomputable def slogdetCplx {b n : ℕ} (v : Fin (b * (n * n)) → ℂ) : List Arr :=
  [.num (.cplx b) fun β : Fin b => (toMat v β).det / (‖(toMat v β).det‖ : ℝ),
   .num (.real b) fun β : Fin b => Real.log ‖(toMat v β).det‖]

noncomputable def slogdetBind (b n : ℕ) : List Arr → Except String (List Arr)
  | [.num (.real m) v] => match fit (n := m) (b * (n * n)) v with
    | some v => .ok (slogdetReal v)
    | none => .error "shape"
  | [.num (.cplx m) v] => match fit (n := m) (b * (n * n)) v with
    | some v => .ok (slogdetCplx v)
    | none => .error "shape"
  | _ => .error "TypeError"

/-- The derivative and second-derivative terms of `log det`, slogdet.py:48-60: `tr(A⁻¹ J)`, `tr(A⁻¹ L)`,
`- Σ (A⁻¹J)_ij (A⁻¹J)_ji`. -/
noncomputable def slogJac {𝕜 : Type} [Field 𝕜] {n : ℕ} (A J : Matrix (Fin n) (Fin n) 𝕜) : 𝕜 := (A⁻¹ * J).trace

noncomputable def slogHess {𝕜 : Type} [Field 𝕜] [Fintype κ] {n : ℕ} (A : Matrix (Fin n) (Fin n) 𝕜)
    (J : κ → Matrix (Fin n) (Fin n) 𝕜) : 𝕜 :=
  - ∑ k, ∑ i, ∑ j, (A⁻¹ * J k) i j * (A⁻¹ * J k) j i

/-- `handle_slogdet`, slogdet.py:25-72, on a dense LapTuple. -/
noncomputable def slogdetRule [Fintype κ] (b n : ℕ) : List (TVal κ) → Except String (List (TVal κ))
  | [.tracked (.real m) a] => match fitLap (n := m) (b * (n * n)) a with
    | some a => .ok [.plain (.num (.real b) fun β : Fin b => SignType.sign (toMat a.x β).det),
        .tracked (.real b) ⟨fun β : Fin b => Real.log |(toMat a.x β).det|,
          fun k (β : Fin b) => slogJac (toMat a.x β) (toMat (a.jac k) β),
          fun β : Fin b => slogJac (toMat a.x β) (toMat a.lap β) + slogHess (toMat a.x β) fun k => toMat (a.jac k) β⟩]
    | none => .error "shape"
  | [.tracked (.cplx m) a] => match fitLap (n := m) (b * (n * n)) a with
    | some a =>
      let sign : Fin b → ℂ := fun β => (toMat a.x β).det / (‖(toMat a.x β).det‖ : ℝ)
      let jac : κ → Fin b → ℂ := fun k β => slogJac (toMat a.x β) (toMat (a.jac k) β)
      let jvp : Fin b → ℂ := fun β => slogJac (toMat a.x β) (toMat a.lap β)
      let hess : Fin b → ℂ := fun β => slogHess (toMat a.x β) fun k => toMat (a.jac k) β
      .ok [.tracked (.cplx b) ⟨sign, fun k β => Complex.I * sign β * ((jac k β).im : ℝ),
          fun β => sign β * (Complex.I * (((jvp β).im + (hess β).im : ℝ) : ℂ) - ((∑ k, (jac k β).im * (jac k β).im : ℝ) : ℂ))⟩,
        .tracked (.real b) ⟨fun β : Fin b => Real.log ‖(toMat a.x β).det‖, fun k (β : Fin b) => (jac k β).re,
          fun β : Fin b => (jvp β).re + (hess β).re⟩]
    | none => .error "shape"
  | _ => .error "TypeError"

end Jaqmc.Laplacian
