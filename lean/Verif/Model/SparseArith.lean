import Verif.Model.Sparse
import Mathlib.Data.Real.Basic
import Mathlib.Analysis.Complex.Basic
/-!
Model of the sparse branches of the arithmetic and elementwise handlers,
`src/jaqmc/laplacian/primitives/{arithmetic,elementwise,complex,core}.py` (for C45).

The dense handlers (`wrap_linear`, `wrap_multiplication`, `wrap_general`, `wrap_elementwise`) are represented by the chain
rules of `Spec`; that they compute these is C44.
-/
namespace Jaqmc.Sparse
open Spec

section
variable {K : Type} [Field K]

/-- The number of dense rows of a tracked argument. -/
def Val.basis : Val K → Option ℕ
  | .plain _ => none
  | .dense d => some d.n
  | .sparse s => some s.jac.inShape.prod

/-- An argument in dense form over `n` coordinates (`densify_tree`, core.py:71-82; plain arguments have no derivatives;
arguments with another basis raise, core.py:186-194). -/
def Val.lift (n : ℕ) : Val K → Option (DLap K)
  | .plain p => some (const n p)
  | .dense d => if d.n = n then some d else none
  | .sparse s => if s.jac.inShape.prod = n then s.expand else none

/-- The basis of the first tracked argument. -/
def basisOf (vs : List (Val K)) : Option ℕ := vs.findSome? Val.basis

/-- The dense handler of a binary function, also reached through `fallback_dense` (core.py:198-208). -/
def dense2 (F : Fun2 K) (l r : Val K) : Option (Val K) := do
  let n ← basisOf [l, r]
  some (.dense (chain2 F (← l.lift n) (← r.lift n)))

/-- Find a role among the distinct ones or append it: `output_slot` (arithmetic.py:80-85, dot_general.py:231-236). -/
def outputSlot (owners : List OwnerRole) (o : OwnerRole) : List OwnerRole × ℕ :=
  if o ∈ owners then (owners, owners.idxOf o) else (owners ++ [o], owners.length)

/-- `output_slot` for each role in turn. -/
def outputSlots (owners : List OwnerRole) : List OwnerRole → List OwnerRole × List ℕ
  | [] => (owners, [])
  | o :: os =>
    let p := outputSlot owners o
    let q := outputSlots p.1 os
    (q.1, p.2 :: q.2)

/-- `blocks.at[slot].add(block)` (arithmetic.py:111, dot_general.py:609). -/
def addAt (B : Arr K) (slot : ℕ) (A : Arr K) : Arr K :=
  ⟨B.shape, fun i => if i.headD 0 = slot then B.get i + A.get i.tail else B.get i⟩

/-- Accumulate slot `k`, `k+1`, … of `src` into the listed output slots. -/
def accumulate (src : ℕ → Arr K) : ℕ → List ℕ → Arr K → Arr K
  | _, [], B => B
  | k, t :: ts, B => accumulate src (k + 1) ts (addAt B t (src k))

/-- `_Local2BinaryMerge` (arithmetic.py:60-116): the roles of the result and the slots of the two operands; `none` when
three roles are needed. -/
def mergeLocal2 (l r : SJac K) : Option (List OwnerRole × List ℕ × List ℕ) :=
  let p := outputSlots [] l.roles
  let q := outputSlots p.1 r.roles
  if q.1.length > 2 then none
  else some (if q.1.length = 1 then q.1 ++ q.1 else q.1, p.2, q.2)

/-- `merge_blocks` (arithmetic.py:98-116). -/
def mergeBlocks (ls rs : List ℕ) (lb rb : Arr K) : Arr K :=
  accumulate rb.at0 0 rs (accumulate lb.at0 0 ls (fullA lb.shape 0))

/-- `_add_sub_local1` (arithmetic.py:119-156). -/
def addLocal1 (sub : Bool) (a b : SLap K) : Option (SLap K) := do
  if ¬ compat a.jac b.jac then none
  let sh := bshape a.jac.out b.jac.out
  let aj ← broadcastSJ a.jac sh
  let bj ← broadcastSJ b.jac sh
  let bl := if sub then b.lap.map (- ·) else b.lap
  let x := if sub then binop (· - ·) a.x b.x else binop (· + ·) a.x b.x
  if aj.roles ≠ bj.roles then
    return ⟨x, ← liftLocal2 aj bj (if sub then -1 else 1), binop (· + ·) a.lap bl⟩
  else
    let bb := if sub then bj.blocks.map (- ·) else bj.blocks
    return ⟨x, ← aj.withBlocks (binop (· + ·) aj.blocks bb) aj.roles, binop (· + ·) a.lap bl⟩

/-- `_add_sub_local2` (arithmetic.py:159-191); the inner `none` asks for the dense fallback. -/
def addLocal2 (sub : Bool) (a b : SLap K) : Option (Option (SLap K)) := do
  if ¬ compat a.jac b.jac then none
  let sh := bshape a.jac.out b.jac.out
  let aj ← broadcastSJ a.jac sh
  let bj ← broadcastSJ b.jac sh
  match mergeLocal2 aj bj with
  | none => return none
  | some (roles, ls, rs) =>
    let bb := if sub then bj.blocks.map (- ·) else bj.blocks
    let bl := if sub then b.lap.map (- ·) else b.lap
    return some ⟨if sub then binop (· - ·) a.x b.x else binop (· + ·) a.x b.x,
      ← aj.withBlocks (mergeBlocks ls rs aj.blocks bb) roles, binop (· + ·) a.lap bl⟩

/-- `broadcast_sparse_and_plain_to_common_shape` (sparse_ops.py:103-115). -/
def toCommon (s : SLap K) (p : Arr K) : Option (SLap K × Arr K) :=
  let sh := bshape s.x.shape p.shape
  (broadcastSL s sh).map fun t => (t, p.bcast sh)

/-- `handle_add`, `handle_sub` (arithmetic.py:194-252). -/
def handleAddSub (sub : Bool) (l r : Val K) : Option (Val K) :=
  let dense := dense2 (if sub then subF else addF) l r
  match l, r with
  | .sparse a, .sparse b =>
    if a.jac.roles.length = 1 ∧ b.jac.roles.length = 1 then (addLocal1 sub a b).map .sparse
    else if a.jac.roles.length = 2 ∧ b.jac.roles.length = 2 then do
      match ← addLocal2 sub a b with
      | some v => return .sparse v
      | none => dense
    else dense
  | .sparse a, .plain p => do
    let (s, q) ← toCommon a p
    return .sparse ⟨if sub then binop (· - ·) s.x q else binop (· + ·) s.x q, s.jac, s.lap⟩
  | .plain p, .sparse a => do
    let (s, q) ← toCommon a p
    if sub then
      return .sparse ⟨binop (· - ·) q s.x, ← scaleSJ s.jac (fullA [] (-1)), s.lap.map (- ·)⟩
    else return .sparse ⟨binop (· + ·) q s.x, s.jac, s.lap⟩
  | _, _ => dense

/-- `handle_neg` on a sparse argument (arithmetic.py:255-264). -/
def handleNeg (s : SLap K) : Option (SLap K) := do
  return ⟨s.x.map (- ·), ← scaleSJ s.jac (fullA [] (-1)), s.lap.map (- ·)⟩

/-- `handle_rem` (arithmetic.py:267-291). -/
def handleRem (rem : K → K → K) (l r : Val K) (dense : Option (Val K)) : Option (Val K) :=
  match l, r with
  | .sparse a, .plain p => do
    let (s, q) ← toCommon a p
    return .sparse ⟨binop rem s.x q, s.jac, s.lap⟩
  | _, _ => dense

/-- Sum of a pair of block arrays over slots and coordinates (`jnp.sum(… , axis=(0, 1))`, arithmetic.py:310). -/
def blockDot (slots coords : ℕ) (A B : Arr K) : Arr K :=
  ⟨A.shape.drop 2, fun i => ∑ s ∈ Finset.range slots, ∑ c ∈ Finset.range coords, A.get (s :: c :: i) * B.get (s :: c :: i)⟩

/-- `jnp.where(mask, a, 0)`. -/
def maskA (m : Arr Bool) (A : Arr K) : Arr K := ⟨A.shape, fun i => if m.get i then A.get i else 0⟩

/-- `_mul_local1_local1` (arithmetic.py:294-337). -/
def mulLocal1 (a₀ b₀ : SLap K) : Option (SLap K) := do
  if ¬ compat a₀.jac b₀.jac then none
  let sh := bshape a₀.jac.out b₀.jac.out
  let a ← broadcastSL a₀ sh
  let b ← broadcastSL b₀ sh
  let y := binop (· * ·) a.x b.x
  let lap := binop (· + ·) (binop (· * ·) b.x a.lap) (binop (· * ·) a.x b.lap)
  let cross := blockDot 1 a.jac.coords a.jac.blocks b.jac.blocks
  let as ← scaleSJ a.jac b.x
  let bs ← scaleSJ b.jac a.x
  if a.jac.roles = b.jac.roles then
    return ⟨y, ← as.withBlocks (binop (· + ·) as.blocks bs.blocks) as.roles, binop (· + ·) lap (cross.map (2 * ·))⟩
  else
    match a.jac.roles, b.jac.roles with
    | o :: _, p :: _ =>
      let m ← ownerMask o p y.shape
      return ⟨y, ← liftLocal2 as bs 1, binop (· + ·) lap ((maskA m cross).map (2 * ·))⟩
    | _, _ => none

/-- One term of `_local2_product_cross_trace`. -/
def crossTerm (a b : SJac K) (s t : ℕ) : Option (Arr K) := do
  let o ← a.roles[s]?
  let p ← b.roles[t]?
  let m ← ownerMask o p a.out
  return maskA m ⟨a.out, fun i => ∑ c ∈ Finset.range a.coords, a.blocks.get (s :: c :: i) * b.blocks.get (t :: c :: i)⟩

/-- `_local2_product_cross_trace` (arithmetic.py:340-364). -/
def crossTrace2 (a b : SJac K) : Option (Arr K) := do
  let t00 ← crossTerm a b 0 0
  let t01 ← crossTerm a b 0 1
  let t10 ← crossTerm a b 1 0
  let t11 ← crossTerm a b 1 1
  return binop (· + ·) (binop (· + ·) (binop (· + ·) (binop (· + ·) (fullA a.out 0) t00) t01) t10) t11

/-- `_mul_local2_local2` (arithmetic.py:367-394). -/
def mulLocal2 (a₀ b₀ : SLap K) : Option (Option (SLap K)) := do
  if ¬ compat a₀.jac b₀.jac then none
  let sh := bshape a₀.jac.out b₀.jac.out
  let a ← broadcastSL a₀ sh
  let b ← broadcastSL b₀ sh
  match mergeLocal2 a.jac b.jac with
  | none => return none
  | some (roles, ls, rs) =>
    let y := binop (· * ·) a.x b.x
    let as ← scaleSJ a.jac b.x
    let bs ← scaleSJ b.jac a.x
    let cross ← crossTrace2 a.jac b.jac
    let lap := binop (· + ·) (binop (· * ·) b.x a.lap) (binop (· * ·) a.x b.lap)
    return some ⟨y, ← as.withBlocks (mergeBlocks ls rs as.blocks bs.blocks) roles,
      binop (· + ·) lap (cross.map (2 * ·))⟩

/-- `handle_mul` (arithmetic.py:397-455). -/
def handleMul (l r : Val K) : Option (Val K) :=
  let dense := dense2 mulF l r
  let scaled (a : SLap K) (p : Arr K) : Option (Val K) := do
    let (s, q) ← toCommon a p
    return .sparse ⟨binop (· * ·) s.x q, ← scaleSJ s.jac q, binop (· * ·) s.lap q⟩
  match l, r with
  | .sparse a, .plain p => scaled a p
  | .plain p, .sparse a => scaled a p
  | .sparse a, .sparse b =>
    if a.jac.roles.length = 1 ∧ b.jac.roles.length = 1 then (mulLocal1 a b).map .sparse
    else if a.jac.roles.length = 2 ∧ b.jac.roles.length = 2 then do
      match ← mulLocal2 a b with
      | some v => return .sparse v
      | none => dense
    else dense
  | _, _ => dense

/-- `handle_pow` (arithmetic.py:458-494); `pw1`, `pw2` are the derivatives in the base that the nested `jvp` computes. -/
def handlePow (pw pw1 pw2 : K → K → K) (l r : Val K) (dense : Option (Val K)) : Option (Val K) :=
  match l, r with
  | .sparse a, .plain p => do
    let (s, e) ← toCommon a p
    let first := binop pw1 s.x e
    let second := binop pw2 s.x e
    return .sparse ⟨binop pw s.x e, ← scaleSJ s.jac first,
      binop (· + ·) (binop (· * ·) first s.lap) (binop (· * ·) second (← sparseTrace id s.jac))⟩
  | _, _ => dense

/-- `_sparse_reciprocal` (arithmetic.py:497-509). -/
def sparseReciprocal (s : SLap K) : Option (SLap K) := do
  let inv := s.x.map (·⁻¹)
  let sq := binop (· * ·) inv inv
  let cu := binop (· * ·) sq inv
  let tr ← sparseTrace id s.jac
  return ⟨inv, ← scaleSJ s.jac (sq.map (- ·)),
    binop (· + ·) (binop (· * ·) (s.lap.map (- ·)) sq) (binop (· * ·) (tr.map (2 * ·)) cu)⟩

/-- `handle_div` (arithmetic.py:512-580).  (The dense branch is C44.) -/
def handleDiv (l r : Val K) : Option (Val K) :=
  let dense := dense2 divF l r
  match l, r with
  | .sparse _, .dense _ => dense
  | .dense _, .sparse _ => dense
  | .sparse a, .plain p => do
    let (s, q) ← toCommon a p
    let inv := q.map (·⁻¹)
    return .sparse ⟨binop (· * ·) s.x inv, ← scaleSJ s.jac inv, binop (· * ·) s.lap inv⟩
  | l, .sparse b => do handleMul l (.sparse (← sparseReciprocal b))
  | _, _ => dense

/-- The handler of a unary elementwise function on a sparse argument (elementwise.py:42-76); `f1`, `f2` are the first and
second derivative computed by the nested `jvp`. -/
def handleUnary (f f1 f2 : K → K) (s : SLap K) : Option (SLap K) := do
  let first := s.x.map f1
  let second := s.x.map f2
  return ⟨s.x.map f, ← scaleSJ s.jac first,
    binop (· + ·) (binop (· * ·) first s.lap) (binop (· * ·) second (← sparseTrace id s.jac))⟩

/-- `handle_round` on a sparse argument (elementwise.py:131-145). -/
def handleRound (rnd : K → K) (s : SLap K) : Option (SLap K) := do
  return ⟨s.x.map rnd, ← s.jac.withBlocks (fullA s.jac.blocks.shape 0) s.jac.roles, fullA s.x.shape 0⟩

end

/-- `wrap_componentwise` on a sparse argument: `conj`, `real`, `imag` and dtype casts apply to value, blocks and Laplacian
(core.py:504-530, dtype.py:24-41). -/
def handleComponent {K L : Type} (f : K → L) (s : SLap K) : Option (SLap L) := do
  let z : SJac L := ⟨s.jac.blocks.map f, s.jac.roles, s.jac.inShape, s.jac.ownAx⟩
  if z.valid then some ⟨s.x.map f, z, s.lap.map f⟩ else none

/-- `handle_abs` on a real sparse argument (elementwise.py:117-126). -/
noncomputable def handleAbsReal (s : SLap ℝ) : Option (SLap ℝ) := do
  let factor := s.x.map fun v => if 0 ≤ v then (1 : ℝ) else -1
  return ⟨s.x.map (|·|), ← scaleSJ s.jac factor, binop (· * ·) factor s.lap⟩

/-- `handle_abs` on a complex sparse argument (elementwise.py:79-105). -/
noncomputable def handleAbsComplex (s : SLap ℂ) : Option (SLap ℝ) := do
  let y := s.x.map fun z => ‖z‖
  let fs := fun (A : Arr ℝ) => laxReshape A (1 :: 1 :: y.shape)
  let blocks := binop (· / ·)
    (binop (· + ·) (binop (· * ·) (fs (s.x.map Complex.re)) (s.jac.blocks.map Complex.re))
      (binop (· * ·) (fs (s.x.map Complex.im)) (s.jac.blocks.map Complex.im)))
    (fs y)
  let j ← mkSJac blocks s.jac.roles s.jac.inShape s.jac.ownAx
  let lap0 := binop (· / ·)
    (binop (· + ·) (binop (· * ·) (s.x.map Complex.re) (s.lap.map Complex.re))
      (binop (· * ·) (s.x.map Complex.im) (s.lap.map Complex.im))) y
  let trH ← sparseTrace (starRingEnd ℂ) s.jac
  let trT ← sparseTrace id j
  return ⟨y, j, binop (· + ·) lap0 (binop (· / ·) (binop (· - ·) (trH.map Complex.re) trT) y)⟩

end Jaqmc.Sparse
