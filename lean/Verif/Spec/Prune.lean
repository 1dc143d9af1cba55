import Verif.Model.Prune
/-! Vocabulary for structural pruning. -/
namespace Jaqmc.Prune.Spec
open Jaqmc.Prune

variable {V : Type}

/-- Same number of values, and the same ones at the given positions. -/
def AgreeOn (q : ℕ → Bool) (vs vs' : List V) : Prop := vs.length = vs'.length ∧ ∀ p, q p = true → vs[p]? = vs'[p]?

/-- No loops anywhere in the program. -/
inductive LoopFree : Jaxpr V → Prop
  | done (ins : List ℕ) (outs : List (Atom V)) : LoopFree (.mk ins .nil outs)
  | prim (ins : List ℕ) (f : List V → List V) (args : List (Atom V)) (os : List (Option ℕ)) (rest : Eqns V) (outs : List (Atom V)) :
      LoopFree (.mk ins rest outs) → LoopFree (.mk ins (.cons (.prim f) args os rest) outs)
  | call (ins : List ℕ) (b : Jaxpr V) (args : List (Atom V)) (os : List (Option ℕ)) (rest : Eqns V) (outs : List (Atom V)) :
      LoopFree b → LoopFree (.mk ins rest outs) → LoopFree (.mk ins (.cons (.call b) args os rest) outs)
  | cond0 (ins : List ℕ) (args : List (Atom V)) (os : List (Option ℕ)) (rest : Eqns V) (outs : List (Atom V)) :
      LoopFree (.mk ins rest outs) → LoopFree (.mk ins (.cons (.cond .nil) args os rest) outs)
  | cond (ins : List ℕ) (b : Jaxpr V) (bs : Branches V) (args : List (Atom V)) (os : List (Option ℕ)) (rest : Eqns V) (outs : List (Atom V)) :
      LoopFree b → LoopFree (.mk ins (.cons (.cond bs) args os rest) outs) → LoopFree (.mk ins (.cons (.cond (.cons b bs)) args os rest) outs)

mutual
/-- Where the analysis of loops is complete.  For a `scan` that must produce the outputs `pos`: it repeats at least once, and a carried value the
body reads for them is one of them.  For a `while`: no constants of the condition, and the body reads every carried value. -/
def OpSettled : Op V → (ℕ → Bool) → Prop
  | .prim _, _ => True
  | .cond bs, pos => BranchesSettled bs pos
  | .call b, pos => Settled b pos
  | .scan nc nk len b, pos => 0 < len ∧ (∀ j < nk, b.active pos (nc + j) = true → pos j = true) ∧ Settled b pos
  | .loop cn bn _ b, pos => cn = 0 ∧ (∀ j < b.outs.length, b.active (fun _ => true) (bn + j) = true) ∧ (∀ p, pos p = true → p < b.outs.length) ∧
      Settled b fun _ => true
/-- The same for a program of which the outputs `pos` are wanted. -/
def Settled : Jaxpr V → (ℕ → Bool) → Prop
  | .mk _ eqns outs, pos => EqnsSettled eqns (addArgs (fun _ => false) outs pos)
/-- The same for equations, after which the variables `act` are wanted. -/
def EqnsSettled : Eqns V → (ℕ → Bool) → Prop
  | .nil, _ => True
  | .cons op _ outs rest, act => EqnsSettled rest act ∧
      ((∃ p, outPositions (rest.back act) outs p = true) → OpSettled op (outPositions (rest.back act) outs))
/-- The same for branches. -/
def BranchesSettled : Branches V → (ℕ → Bool) → Prop
  | .nil, _ => True
  | .cons b bs, pos => Settled b pos ∧ BranchesSettled bs pos
end

/-- The variable is an argument of an equation. -/
def ReadBy (v : ℕ) : Eqns V → Prop
  | .nil => False
  | .cons _ args _ rest => Atom.var v ∈ args ∨ ReadBy v rest

/-- Entry `i` of the flattened parameters lies in an active leaf: the sizes of the leaves before it and the size of its leaf bracket `i`. -/
def InActiveLeaf (leaves : List (ℕ × Bool)) (i : ℕ) : Prop :=
  ∃ l size, leaves[l]? = some (size, true) ∧ ((leaves.take l).map Prod.fst).sum ≤ i ∧ i < ((leaves.take l).map Prod.fst).sum + size

end Jaqmc.Prune.Spec
