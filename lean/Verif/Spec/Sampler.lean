import Verif.Model.Sampler
/-! Specifications for C24-C27. -/
namespace Jaqmc.Sampler.Spec
open Jaqmc.Sampler

/-- The true acceptance rule: from log-probability `a` to `b` with draw `u`, on ordinary numbers. -/
def Accepts (a b u : ℝ) : Prop := u < Real.exp b / Real.exp a

/-- Walkers `i` of `x` and `y` are in the same configuration (all fields agree). -/
def SameAt {F V : Type} {n : Nat} (i : Fin n) (x y : Batch F n V) : Prop := ∀ f, x f i = y f i

/-- Sampling one block after the other: each sampler gets its fields of the *current* data, scores
proposals with the current values of the other fields, and its result is put back before the next one.
The last two arguments list the new sampler states and the sampled parts. -/
inductive InTurn {V Key L S T : Type} (split : Key → Key × Key) (logProb : Jaqmc.Data.Record V → L) :
    Jaqmc.Data.Record V → List (PlanSampler V Key L S T × S) → Key → Jaqmc.Data.Record V → List S →
    List (List (String × V)) → Prop where
  | done (data key) : InTurn split logProb data [] key data [] []
  | next {data part newPart data' data'' : Jaqmc.Data.Record V} {sampler st st' stats rest key sts parts}
      (hsub : Jaqmc.Data.subset data sampler.keys = .ok part)
      (hstep : sampler.step (fun x => (Jaqmc.Data.merge data x).map logProb) part st (split key).2
        = (newPart, stats, st'))
      (hmerge : Jaqmc.Data.merge data newPart = .ok data')
      (hrest : InTurn split logProb data' rest (split key).1 data'' sts parts) :
      InTurn split logProb data ((sampler, st) :: rest) key data'' (st' :: sts) (newPart :: parts)

/-- A sampler hands back the fields it was given. -/
def Returns {V Key L S T : Type} (s : PlanSampler V Key L S T) : Prop :=
  ∀ f part st key, (s.step f part st key).1.map Prod.fst = part.map Prod.fst

/-- What the width must do at the end of a period with mean acceptance `m`. -/
noncomputable def adjusted (low high m w : ℝ) : ℝ :=
  if high < m then w * (11 / 10) else if m < low then w / (11 / 10) else w

end Jaqmc.Sampler.Spec
