/-!
Model of `src/jaqmc/utils/checkpoint.py`.

Strings are lists of characters (Python compares `str` by code point, lexicographically).
Exceptions are values of `Exc`.  The file system is a finite list of named files; a file is
described by what was written into it, and `npLoad` says how `numpy.load` reacts to it.
-/
namespace Jaqmc.Checkpoint

/-- Python exceptions that can come out of the modelled functions. -/
inductive Exc where
  | osError | eofError | badZipFile            -- the three classes caught at checkpoint.py:155
  | valueError | keyError | zlibError          -- not caught there
  | fileNotFound | runtimeError | typeError
  deriving DecidableEq, Repr

/-! ### Trees and their string keys -/

/-- Key-path entries of a JAX PyTree (checkpoint.py:186-195): `DictKey`, `SequenceKey`
(`FlattenedIndexKey` behaves the same) and `GetAttrKey`.  Dictionary keys are strings. -/
inductive Key where
  | dict (s : List Char)
  | seq (i : Nat)
  | attr (s : List Char)
  deriving DecidableEq, Repr

/-- The decimal digit character of a number below ten. -/
def digitChar (d : Nat) : Char := Char.ofNat (48 + d)

/-- Python's `str(n)` for a non-negative integer. -/
def decimal (n : Nat) : List Char :=
  if n < 10 then [digitChar n] else decimal (n / 10) ++ [digitChar (n % 10)]
termination_by n
decreasing_by omega

/-- `str(key)` of a key-path entry, checkpoint.py:183-195. -/
def Key.str : Key → List Char
  | .dict s => s
  | .seq i => decimal i
  | .attr s => s

/-- The three kinds of leaves `from_npz` distinguishes (checkpoint.py:246-254). -/
inductive Kind where | np | jax | py
  deriving DecidableEq, Repr

/-- An array: shape and flat data.  A Python scalar has shape `[]` and one element. -/
structure Arr (V : Type) where
  shape : List Nat
  data : List V
  deriving DecidableEq, Repr

structure Leaf (V : Type) where
  kind : Kind
  val : Arr V
  deriving DecidableEq, Repr

/- A PyTree: a leaf, or a node whose children are in JAX's flattening order.
`None` is a node without children. -/
mutual
inductive Tree (V : Type) where
  | leaf (l : Leaf V)
  | node (c : Forest V)
inductive Forest (V : Type) where
  | nil
  | cons (k : Key) (t : Tree V) (rest : Forest V)
end

/- `jax.tree_util.tree_leaves_with_path` (used at checkpoint.py:224 and 269);
`p` is the path of the enclosing nodes. -/
mutual
def Tree.leavesWithPath {V : Type} (p : List Key) : Tree V → List (List Key × Leaf V)
  | .leaf l => [(p, l)]
  | .node c => c.leavesWithPath p
def Forest.leavesWithPath {V : Type} (p : List Key) : Forest V → List (List Key × Leaf V)
  | .nil => []
  | .cons k t rest => t.leavesWithPath (p ++ [k]) ++ rest.leavesWithPath p
end

/-- `"/".join(...)`. -/
def joinSlash : List (List Char) → List Char
  | [] => []
  | [s] => s
  | s :: t :: r => s ++ '/' :: joinSlash (t :: r)

/-- `_pytree_key_path`, checkpoint.py:198-210. -/
def keyPath (p : List Key) : List Char := joinSlash (p.map Key.str)

/-- `d[k] = v` on an insertion-ordered dictionary. -/
def dictSet {K A : Type} [DecidableEq K] : List (K × A) → K → A → List (K × A)
  | [], k, v => [(k, v)]
  | (k', v') :: d, k, v => if k' = k then (k, v) :: d else (k', v') :: dictSet d k v

/-- `tree_to_npz`, checkpoint.py:213-225 (a dict comprehension: later entries win). -/
def treeToNpz {V : Type} (t : Tree V) : List (List Char × Arr V) :=
  (t.leavesWithPath []).foldl (fun d e => dictSet d (keyPath e.1) e.2.val) []

/-- Contents of an intact `.npz` file: the step and the named members.  Members are stored
under `name ++ ".npy"` (NumPy's `savez`). -/
structure Npz (V : Type) where
  step : Nat
  members : List (List Char × Arr V)

def dotNpy : List Char := ['.', 'n', 'p', 'y']
def stepKey : List Char := ['s', 't', 'e', 'p']
def fileKey : List Char := ['f', 'i', 'l', 'e']
def allowPickleKey : List Char := ['a', 'l', 'l', 'o', 'w', '_', 'p', 'i', 'c', 'k', 'l', 'e']

/-- `np.savez_compressed(f, allow_pickle=False, step=step, **tree_to_npz(data))`,
checkpoint.py:178.  A tree key equal to one of the other argument names makes the call
raise `TypeError` ("multiple values for keyword argument"). -/
def savez {V : Type} (step : Nat) (kw : List (List Char × Arr V)) : Except Exc (Npz V) :=
  if kw.any (fun e => e.1 == stepKey || e.1 == fileKey || e.1 == allowPickleKey) then
    .error .typeError
  else .ok ⟨step, kw.map (fun e => (e.1 ++ dotNpy, e.2))⟩

/-- `npf[name]` of NumPy's `NpzFile`: a member called exactly `name` wins, else the member
`name ++ ".npy"`, else `KeyError`. -/
def npzGet {V : Type} (f : Npz V) (name : List Char) : Except Exc (Arr V) :=
  match f.members.lookup name with
  | some a => .ok a
  | none =>
    match f.members.lookup (name ++ dotNpy) with
    | some a => .ok a
    | none => .error .keyError

/-- `from_npz`, checkpoint.py:228-254.  Device placement is not modelled.
`val.item()` raises `ValueError` unless the array has exactly one element. -/
def fromNpz {V : Type} (name : List Char) (f : Npz V) (ref : Leaf V) : Except Exc (Leaf V) :=
  match npzGet f name with
  | .error e => .error e
  | .ok a =>
    match ref.kind with
    | .np => .ok ⟨.np, a⟩
    | .jax => .ok ⟨.jax, a⟩
    | .py => if a.data.length = 1 then .ok ⟨.py, ⟨[], a.data⟩⟩ else .error .valueError

/-- Evaluate a list comprehension whose body may raise. -/
def mapE {A B : Type} (f : A → Except Exc B) : List A → Except Exc (List B)
  | [] => .ok []
  | a :: as =>
    match f a with
    | .error e => .error e
    | .ok b =>
      match mapE f as with
      | .error e => .error e
      | .ok bs => .ok (b :: bs)

/- `jax.tree.unflatten(treedef, vals)` (checkpoint.py:274): refill the structure of `ref`
with the given leaves from left to right, returning the unused ones. -/
mutual
def Tree.refill {V : Type} : Tree V → List (Leaf V) → Option (Tree V × List (Leaf V))
  | .leaf _, [] => none
  | .leaf _, v :: vs => some (.leaf v, vs)
  | .node c, vs =>
    match c.refill vs with
    | none => none
    | some (c', vs') => some (.node c', vs')
def Forest.refill {V : Type} : Forest V → List (Leaf V) → Option (Forest V × List (Leaf V))
  | .nil, vs => some (.nil, vs)
  | .cons k t rest, vs =>
    match t.refill vs with
    | none => none
    | some (t', vs') =>
      match rest.refill vs' with
      | none => none
      | some (rest', vs'') => some (.cons k t' rest', vs'')
end

/-- `tree_from_npz`, checkpoint.py:257-274.  (`unflatten` with a wrong number of leaves
raises `ValueError`; it cannot happen here.) -/
def treeFromNpz {V : Type} (f : Npz V) (ref : Tree V) : Except Exc (Tree V) :=
  match mapE (fun e => fromNpz (keyPath e.1) f e.2) (ref.leavesWithPath []) with
  | .error e => .error e
  | .ok vals =>
    match ref.refill vals with
    | some (t, []) => .ok t
    | _ => .error .valueError

/-! ### Files and directories -/

/-- What a checkpoint file holds.  `torn n`: a save was cut off by a crash after `n` bytes had
reached the disk (a proper prefix of a zip archive).  `damaged e`: any other damage, reading
which raises `e`. -/
inductive File (V : Type) where
  | intact (z : Npz V)
  | torn (bytes : Nat)
  | damaged (e : Exc)

/-- `np.load` on a file.  An empty file raises `EOFError`; one to three bytes do not contain
the zip magic number, NumPy then tries the pickle reader and raises `ValueError`; a longer
proper prefix has no zip directory and raises `BadZipFile`. -/
def npLoad {V : Type} : File V → Except Exc (Npz V)
  | .intact z => .ok z
  | .torn 0 => .error .eofError
  | .torn (n + 1) => if n + 1 < 4 then .error .valueError else .error .badZipFile
  | .damaged e => .error e

abbrev Name := List Char
abbrev Dir (V : Type) := List (Name × File V)

/-- `restore_from_file`, checkpoint.py:61-91 (the argument is known to be a file). -/
def restoreFromFile {V : Type} (f : File V) (fallback : Tree V) : Except Exc (Nat × Tree V) :=
  match npLoad f with
  | .error e => .error e
  | .ok z =>
    match treeFromNpz z fallback with
    | .error e => .error e
    | .ok t => .ok (z.step + 1, t)

/-- Python's `<=` on `str`. -/
def nameLe : Name → Name → Bool
  | [], _ => true
  | _ :: _, [] => false
  | a :: as, b :: bs => if a.toNat < b.toNat then true else if a = b then nameLe as bs else false

/-- Insertion into a list sorted in decreasing order. -/
def insertDesc {A : Type} (x : Name × A) : List (Name × A) → List (Name × A)
  | [] => [x]
  | y :: ys => if nameLe y.1 x.1 then x :: y :: ys else y :: insertDesc x ys

/-- `sorted(..., reverse=True)` by file name (names in a directory are distinct, so the sorting
algorithm is irrelevant). -/
def sortDesc {A : Type} : List (Name × A) → List (Name × A)
  | [] => []
  | x :: xs => insertDesc x (sortDesc xs)

def ckptWord : Name := ['c', 'k', 'p', 't', '_']
def dotNpz : Name := ['.', 'n', 'p', 'z']

/-- `self.prefix`, checkpoint.py:58. -/
def prefixOf (stage : Name) : Name := if stage = [] then [] else stage ++ ['_']

/-- The glob `f"{self.prefix}ckpt_*.npz"`, checkpoint.py:135 (prefix free of glob
metacharacters). -/
def globMatch (stage : Name) (n : Name) : Bool :=
  let p := prefixOf stage ++ ckptWord
  p.isPrefixOf n && dotNpz.isSuffixOf n && decide (p.length + dotNpz.length ≤ n.length)

/-- Left-pad with zeros to width six: `f"{step:06d}"`. -/
def pad6 (n : Nat) : List Char :=
  let d := decimal n
  List.replicate (6 - d.length) '0' ++ d

/-- The file name written by `save`, checkpoint.py:174. -/
def fileName (stage : Name) (step : Nat) : Name :=
  prefixOf stage ++ ckptWord ++ pad6 step ++ dotNpz

/-- Is the exception one of `(OSError, EOFError, BadZipFile)`, checkpoint.py:155?
(`FileNotFoundError` is an `OSError`.) -/
def Exc.caught : Exc → Bool
  | .osError | .eofError | .badZipFile | .fileNotFound => true
  | _ => false

/-- The `for ckpt_path in ckpt_files` loop, checkpoint.py:152-163. -/
def tryAll {V : Type} (strict : Bool) (fallback : Tree V) :
    List (Name × File V) → Except Exc (Nat × Tree V)
  | [] => if strict then .error .runtimeError else .ok (0, fallback)
  | (_, f) :: fs =>
    match restoreFromFile f fallback with
    | .ok r => .ok r
    | .error e => if e.caught then tryAll strict fallback fs else .error e

/-- What `restore_path` points to. -/
inductive Path (V : Type) where
  | missing
  | file (f : File V)
  | dir (d : Dir V)

/-- `NumPyCheckpointManager.restore`, checkpoint.py:93-163. -/
def restore {V : Type} (stage : Name) (strict : Bool) (path : Path V) (fallback : Tree V) :
    Except Exc (Nat × Tree V) :=
  match path with
  | .missing => if strict then .error .fileNotFound else .ok (0, fallback)
  | .file f => restoreFromFile f fallback
  | .dir d =>
    match sortDesc (d.filter (fun e => globMatch stage e.1)) with
    | [] => if strict then .error .fileNotFound else .ok (0, fallback)
    | fs => tryAll strict fallback fs

/-- `NumPyCheckpointManager.save`, checkpoint.py:165-178: (over)write one file.  The file is
opened (hence emptied) first; if `savez` raises, the empty file stays behind.  `crash = some n`
means the process died after `n` bytes of the archive had reached the disk. -/
def save {V : Type} (stage : Name) (d : Dir V) (step : Nat) (t : Tree V) (crash : Option Nat) :
    Dir V × Option Exc :=
  let name := fileName stage step
  match savez step (treeToNpz t) with
  | .error e => (dictSet d name (.torn 0), some e)
  | .ok z =>
    match crash with
    | none => (dictSet d name (.intact z), none)
    | some n => (dictSet d name (.torn n), none)

end Jaqmc.Checkpoint
