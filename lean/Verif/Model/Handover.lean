import Verif.Model.Sampler
/-! # Handing a state from one stage to the next (C127)

`workflow/vmc.py:20-37,108-125`, `stage/sampling.py:218-245`, `workflow/evaluation.py:89-114`.
Parameters, walkers and sampler states are opaque; sharding and device placement are not modelled. -/

namespace Jaqmc.Handover

/-- `SamplePlan.samplers`: the fields of each sampler and its class. -/
abbrev Plan (Cls : Type) := List (List String × Cls)

/-- `_samplers_compatible`, workflow/vmc.py:33-37.  `dict.keys()` are compared as sets. -/
def compatible {Cls : Type} [DecidableEq Cls] (source target : Plan Cls) : Bool :=
  if ¬ (source.all fun e => (target.lookup e.1).isSome) ∨ ¬ (target.all fun e => (source.lookup e.1).isSome) then
    false
  else source.all fun e => decide (source.lookup e.1 = target.lookup e.1)

/-- The part of `SamplingState` that is handed over. -/
structure Carried (P D S : Type) where
  params : P
  data : D
  sampler : S

/-- `SamplingWorkStage.create_state`, stage/sampling.py:224-245: what is given is kept, the rest is
initialised (`initParams` sees the walkers, as does `initSampler`). -/
def createState {P D S : Type} (initParams : D → P) (initSampler : D → S) (params : Option P) (data : D)
    (sampler : Option S) : Carried P D S :=
  let params := match params with
    | none => initParams data
    | some p => p
  let local_ := initSampler data
  let sampler := match sampler with
    | none => local_
    | some s => s
  ⟨params, data, sampler⟩

/-- The state with which training starts, workflow/vmc.py:103-125.  `pretrained` is the final state of
pretraining with its sample plan, or none without pretraining. -/
def trainingState {P D S Cls : Type} [DecidableEq Cls] (initParams : D → P) (initSampler : D → S)
    (initial : D) (pretrained : Option (Carried P D S × Plan Cls)) (plan : Plan Cls) : Carried P D S :=
  match pretrained with
  | some (s, pre) =>
    createState initParams initSampler (some s.params) s.data
      (if compatible pre plan then some s.sampler else none)
  | none => createState initParams initSampler none initial none

/-- The state with which an evaluation starts, workflow/evaluation.py:86-114: everything from the
checkpoint; the stage's own plan is not compared with that of the training. -/
def evaluationState {P D S : Type} (initParams : D → P) (initSampler : D → S) (initial : D)
    (checkpoint : Carried P D S) : Carried P D S :=
  let fresh := createState initParams initSampler none initial none
  { fresh with params := checkpoint.params, data := checkpoint.data, sampler := checkpoint.sampler }

end Jaqmc.Handover
