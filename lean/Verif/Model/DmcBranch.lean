import Mathlib.Data.Fin.Tuple.Sort
import Mathlib.Data.Real.Basic
import Mathlib.Data.Nat.Log
import Mathlib.Algebra.BigOperators.Group.Finset.Basic

/-!
# The two branching steps of the legacy DMC (`/repo/src/jaqmc_legacy/dmc`)

`branch.py` (variable population) and `branch_fix_size.py` (fixed population).
A population is `N` weights `w : Fin N → ℝ` and one branch array
`x : Fin N → α` (`branch_arrays` is a list of arrays that are all treated in
the same way; `α` may be a product).  Real numbers stand for floats.  The
uniform draws are inputs: draw `j` is the one used by pair `j`.
-/

namespace Jaqmc.DmcBranch

open scoped Classical

/-- The order in which `jax.lax.top_k(-1 * weight, k)` lists indices: by
increasing weight, equal weights by increasing index (`jax.lax.top_k` puts the
lower index first on ties).  branch.py:58, branch_fix_size.py:54. -/
noncomputable def ascending {N : ℕ} (w : Fin N → ℝ) (i : Fin N) : Fin N :=
  Tuple.sort w i

/-- The order in which `jax.lax.top_k(weight, k)` lists indices: by decreasing
weight, equal weights by increasing index.  branch_fix_size.py:59. -/
noncomputable def descending {N : ℕ} (w : Fin N → ℝ) (i : Fin N) : Fin N :=
  Tuple.sort (fun i => -w i) i

/-- `round_merge_pairs` (branch.py:40-50): up to ten pairs as they are, above
that only the leading decimal digit is kept.  Simplification:
`int(np.log10(n))` is the exact integer logarithm. -/
def roundMergePairs (n : ℕ) : ℕ :=
  if n ≤ 10 then n else n / 10 ^ Nat.log 10 n * 10 ^ Nat.log 10 n

/-- `jnp.sum(weight < t)` (branch.py:30, branch_fix_size.py:42). -/
noncomputable def countBelow {N : ℕ} (w : Fin N → ℝ) (t : ℝ) : ℕ :=
  (Finset.univ.filter fun i => w i < t).card

/-- `jnp.sum(weight > t)` (branch_fix_size.py:43). -/
noncomputable def countAbove {N : ℕ} (w : Fin N → ℝ) (t : ℝ) : ℕ :=
  (Finset.univ.filter fun i => t < w i).card

/-! ## Variable size (`branch.py`) -/

/-- `merge_pairs` of `branch` (branch.py:30). -/
noncomputable def mergePairs {N : ℕ} (w : Fin N → ℝ) (minT : ℝ) : ℕ :=
  roundMergePairs (countBelow w minT / 2 + 1)

/-- Entry `[j, b]` of `smallest_k_indices.reshape((merge_pairs, 2))`
(branch.py:58-60), `b = 0`. -/
noncomputable def pairFst {N m : ℕ} (h : 2 * m ≤ N) (w : Fin N → ℝ) (j : Fin m) : Fin N :=
  ascending w ⟨2 * j.1, by omega⟩

/-- Entry `[j, 1]` of `smallest_k_indices` (branch.py:58-60). -/
noncomputable def pairSnd {N m : ℕ} (h : 2 * m ≤ N) (w : Fin N → ℝ) (j : Fin m) : Fin N :=
  ascending w ⟨2 * j.1 + 1, by omega⟩

/-- `update_weight` (branch.py:83-93) on `(weight, repeat_num)`; `u` is the
uniform draw made with the pair's `sub_key`.  For `k1 + k2 = 0` the code
compares with NaN, which is false; here `0 / 0 = 0` and `u < 0` is false for
every draw in `[0, 1)`. -/
noncomputable def updateWeight {N : ℕ} (s : (Fin N → ℝ) × (Fin N → ℕ)) (k1 k2 : ℝ)
    (i1 i2 : Fin N) (u : ℝ) : (Fin N → ℝ) × (Fin N → ℕ) :=
  let keep := if u < k1 / (k1 + k2) then i1 else i2
  let rm := if u < k1 / (k1 + k2) then i2 else i1
  (Function.update s.1 keep (k1 + k2), Function.update s.2 rm 0)

/-- `helper` of the `fori_loop` (branch.py:62-72): `k1`, `k2` are read from the
sorted copy of the original weights. -/
noncomputable def helper {N m : ℕ} (h : 2 * m ≤ N) (w : Fin N → ℝ) (minT : ℝ)
    (u : Fin m → ℝ) (s : (Fin N → ℝ) × (Fin N → ℕ)) (j : Fin m) :
    (Fin N → ℝ) × (Fin N → ℕ) :=
  if w (pairFst h w j) < minT then
    updateWeight s (w (pairFst h w j)) (w (pairSnd h w j)) (pairFst h w j) (pairSnd h w j) (u j)
  else s

/-- `do_branch` (branch.py:52-81): the merging loop, then the two lines that
duplicate and halve every weight above `max_thres`. -/
noncomputable def doBranch {N m : ℕ} (h : 2 * m ≤ N) (w : Fin N → ℝ) (minT maxT : ℝ)
    (u : Fin m → ℝ) : (Fin N → ℝ) × (Fin N → ℕ) :=
  let s := (List.finRange m).foldl (helper h w minT u) (w, fun _ => 1)
  (fun i => s.1 i * (1 - (if maxT < s.1 i then 1 else 0) / 2),
   fun i => s.2 i * (1 + if maxT < s.1 i then 1 else 0))

/-- `weight.repeat(repeat_num)` together with `l.repeat(repeat_num)`
(branch.py:37-38). -/
def repeatRows {N : ℕ} {α : Type*} (w : Fin N → ℝ) (rep : Fin N → ℕ) (x : Fin N → α) :
    List (ℝ × α) :=
  (List.finRange N).flatMap fun i => List.replicate (rep i) (w i, x i)

/-- `branch` (branch.py:16-38).  `none`: the `reshape((merge_pairs, 2))` of
branch.py:59 raises because `min(2 * merge_pairs, len(weight))` is not
`2 * merge_pairs`. -/
noncomputable def branch {N : ℕ} {α : Type*} (w : Fin N → ℝ) (x : Fin N → α) (minT maxT : ℝ)
    (u : ℕ → ℝ) : Option (List (ℝ × α)) :=
  if h : 2 * mergePairs w minT ≤ N then
    let r := doBranch h w minT maxT (fun j => u j.1)
    some (repeatRows r.1 r.2 x)
  else none

/-! ## Fixed size (`branch_fix_size.py`) -/

/-- `num_to_change` (branch_fix_size.py:42-46). -/
noncomputable def numToChange {N : ℕ} (w : Fin N → ℝ) (minT maxT : ℝ) : ℕ :=
  max ((countBelow w minT + 1) / 2) (countAbove w maxT)

/-- `a.at[idx].set(v)`. -/
def setAt {N n : ℕ} {β : Type*} (idx : Fin n → Fin N) (v : Fin n → β) (a : Fin N → β) :
    Fin N → β :=
  (List.finRange n).foldl (fun a j => Function.update a (idx j) (v j)) a

/-- `a.at[idx].add(v)`. -/
noncomputable def addAt {N n : ℕ} (idx : Fin n → Fin N) (v : Fin n → ℝ) (a : Fin N → ℝ) :
    Fin N → ℝ :=
  (List.finRange n).foldl (fun a j => Function.update a (idx j) (a (idx j) + v j)) a

/-- `kept_indices` (branch_fix_size.py:66-68). -/
noncomputable def keptIdx {N n : ℕ} (w : Fin N → ℝ) (a b : Fin n → Fin N) (u : Fin n → ℝ)
    (j : Fin n) : Fin N :=
  if u j < w (a j) / (w (a j) + w (b j)) then a j else b j

/-- `removed_indices` (branch_fix_size.py:66-69): the comparison is `>`. -/
noncomputable def removedIdx {N n : ℕ} (w : Fin N → ℝ) (a b : Fin n → Fin N) (u : Fin n → ℝ)
    (j : Fin n) : Fin N :=
  if w (a j) / (w (a j) + w (b j)) < u j then a j else b j

/-- `do_branch` of branch_fix_size.py:64-80, line by line. -/
noncomputable def doBranchFix {N n : ℕ} {α : Type*} (w : Fin N → ℝ) (x : Fin N → α)
    (a b l : Fin n → Fin N) (u : Fin n → ℝ) : (Fin N → ℝ) × (Fin N → α) :=
  let kept := keptIdx w a b u
  let removed := removedIdx w a b u
  let x' := setAt removed (fun j => x (l j)) x
  let w1 := addAt kept (fun j => w (removed j)) w
  let w2 := setAt l (fun j => w1 (l j) / 2) w1
  let w3 := setAt removed (fun j => w2 (l j)) w2
  (w3, x')

/-- The indices `top_k(weight, n)` (branch_fix_size.py:59). -/
noncomputable def largest {N n : ℕ} (h : 2 * n ≤ N) (w : Fin N → ℝ) (j : Fin n) : Fin N :=
  descending w ⟨j.1, by omega⟩

/-- `branch` of branch_fix_size.py:12-62.  `none`: `top_k` raises because more
than `len(weight)` elements are asked for. -/
noncomputable def branchFix {N : ℕ} {α : Type*} (w : Fin N → ℝ) (x : Fin N → α) (minT maxT : ℝ)
    (u : ℕ → ℝ) : Option ((Fin N → ℝ) × (Fin N → α)) :=
  if numToChange w minT maxT = 0 then some (w, x)
  else if h : 2 * numToChange w minT maxT ≤ N then
    some (doBranchFix w x (pairFst h w) (pairSnd h w) (largest h w) (fun j => u j.1))
  else none

end Jaqmc.DmcBranch
