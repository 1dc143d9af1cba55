import Verif.Model.Checkpoint
/-!
Specification vocabulary for the checkpoint properties (C01, C02, C03, C49).
Only the data types of the model are used here, none of its algorithms, except that a leaf's
key is the slash-joined path (`keyPath`).
-/
namespace Jaqmc.Checkpoint.Spec
open Jaqmc.Checkpoint

/- Two trees have the same structure and the same leaf kinds (only array contents may differ). -/
mutual
def SameShape {V : Type} : Tree V → Tree V → Prop
  | .leaf a, .leaf b => a.kind = b.kind
  | .node a, .node b => SameShapeF a b
  | _, _ => False
def SameShapeF {V : Type} : Forest V → Forest V → Prop
  | .nil, .nil => True
  | .cons k t r, .cons k' t' r' => k = k' ∧ SameShape t t' ∧ SameShapeF r r'
  | _, _ => False
end

/-- The keys of the children of a node. -/
def childKeys {V : Type} : Forest V → List (List Char)
  | .nil => []
  | .cons k _ r => k.str :: childKeys r

/- Every key in the tree is free of `/`, and siblings have different keys. -/
mutual
def KeysOk {V : Type} : Tree V → Prop
  | .leaf _ => True
  | .node c => KeysOkF c
def KeysOkF {V : Type} : Forest V → Prop
  | .nil => True
  | .cons k t r => '/' ∉ k.str ∧ k.str ∉ childKeys r ∧ KeysOk t ∧ KeysOkF r
end

/-- A state tree that NumPy can store: unambiguous keys, no leaf called `step`, `file` or
`allow_pickle` at top level, no leaf name ending in `.npy`, Python scalars are scalars. -/
def Savable {V : Type} (t : Tree V) : Prop :=
  KeysOk t ∧
  ∀ e ∈ t.leavesWithPath [],
    keyPath e.1 ∉ [stepKey, fileKey, allowPickleKey] ∧
    ¬ dotNpy <:+ keyPath e.1 ∧
    (e.2.kind = .py → e.2.val.shape = [] ∧ e.2.val.data.length = 1)

/-! A condition on trees that does not mention how keys are turned into text. -/

/-- The keys of the children of a node, as JAX reports them. -/
def rawKeys {V : Type} : Forest V → List Key
  | .nil => []
  | .cons k _ r => k :: rawKeys r

/-- Names free of `/`. -/
def SlashFree : Key → Prop
  | .dict s => '/' ∉ s
  | .attr s => '/' ∉ s
  | .seq _ => True

/-- Two keys of one container: a dictionary, a dataclass or a sequence never mixes kinds of keys. -/
def SameKind : Key → Key → Prop
  | .dict _, .dict _ => True
  | .attr _, .attr _ => True
  | .seq _, .seq _ => True
  | _, _ => False

/- Every container has distinct keys of one kind (true of every PyTree made of dicts, lists, tuples and
dataclasses), and no dictionary key contains `/`. -/
mutual
def WellKeyed {V : Type} : Tree V → Prop
  | .leaf _ => True
  | .node c => WellKeyedF c
def WellKeyedF {V : Type} : Forest V → Prop
  | .nil => True
  | .cons k t r => SlashFree k ∧ (∀ k' ∈ rawKeys r, k ≠ k' ∧ SameKind k k') ∧ WellKeyed t ∧ WellKeyedF r
end

/-- The key names itself `s`. -/
def Names (k : Key) (s : List Char) : Prop := k = .dict s ∨ k = .attr s

/-- A state tree that NumPy can store, without reference to the text of paths: well keyed, no top-level leaf
called `step`, `file` or `allow_pickle`, no leaf whose own name ends in `.npy`, Python scalars are scalars. -/
def Storable {V : Type} (t : Tree V) : Prop :=
  WellKeyed t ∧
  ∀ e ∈ t.leavesWithPath [],
    (∀ k s, e.1 = [k] → Names k s → s ∉ ["step".toList, "file".toList, "allow_pickle".toList]) ∧
    (∀ k s, e.1.getLast? = some k → Names k s → ¬ ".npy".toList <:+ s) ∧
    (e.2.kind = .py → e.2.val.shape = [] ∧ e.2.val.data.length = 1)

/-- One event in the life of a checkpoint directory: a save that completed, or a save that was
cut off by a crash after `n` bytes. -/
inductive Event (V : Type) where
  | saved (step : Nat) (t : Tree V)
  | cutOff (step : Nat) (t : Tree V) (n : Nat)

def Event.step {V : Type} : Event V → Nat
  | .saved s _ => s
  | .cutOff s _ _ => s

def Event.tree {V : Type} : Event V → Tree V
  | .saved _ t => t
  | .cutOff _ t _ => t

/-- `Survives h s t`: after the history `h`, the last thing that happened to the checkpoint of
step `s` was a completed save of `t`. -/
def Survives {V : Type} (h : List (Event V)) (s : Nat) (t : Tree V) : Prop :=
  ∃ h₁ h₂, h = h₁ ++ .saved s t :: h₂ ∧ ∀ e ∈ h₂, e.step ≠ s

/-- The directory after (each event is one call of the model's `save`) a history of saves. -/
def runEvents {V : Type} (stage : Name) (d : Dir V) (h : List (Event V)) : Dir V :=
  h.foldl (fun d e => match e with
    | .saved s t => (save stage d s t none).1
    | .cutOff s t n => (save stage d s t (some n)).1) d

end Jaqmc.Checkpoint.Spec
