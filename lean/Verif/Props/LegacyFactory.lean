import Verif.Props.LegacyOverlap
/-! C108: the total loss. -/
namespace Jaqmc.LegacyLoss.Props
open Jaqmc.LegacyLoss Jaqmc.LegacyLoss.Spec Jaqmc.Stats.Spec Jaqmc.LossGrad MeasureTheory

/-- The key of the `i`-th component: split off after `i` earlier ones. -/
def subkey {K : Type} (split : K → K × K) (key : K) (i : ℕ) : K := (split ((fun k => (split k).1)^[i] key)).2

section Loop
variable {S A K : Type} (split : K → K × K) (state : String → Option S)

theorem subkey_succ (key : K) (i : ℕ) : subkey split (split key).1 i = subkey split key (i + 1) := by
  unfold subkey; rw [Function.iterate_succ_apply]

/-- What each component returns, with its own key. -/
def results (comps : List (Component S A K)) (key : K) : List (String × ℝ × Option S × A) :=
  comps.mapIdx fun i c => (c.name, c.run (state c.name) (subkey split key i))

theorem results_cons (c : Component S A K) (cs : List (Component S A K)) (key : K) :
    results split state (c :: cs) key = (c.name, c.run (state c.name) (split key).2) :: results split state cs (split key).1 := by
  unfold results
  rw [List.mapIdx_cons]
  simp only [subkey_succ]
  rfl

theorem loop_eq (comps : List (Component S A K)) : ∀ (key : K) (loss : ℝ) (ss : List (String × Option S)) (as : List (String × A)),
    lossLoop split state comps key loss ss as =
      (loss + ((results split state comps key).map fun r => r.2.1).sum,
       ss ++ (results split state comps key).map (fun r => (r.1, r.2.2.1)),
       as ++ (results split state comps key).map (fun r => (r.1, r.2.2.2))) := by
  induction comps with
  | nil => intro key loss ss as; simp [lossLoop, results]
  | cons c cs ih =>
    intro key loss ss as
    rw [results_cons]
    simp only [lossLoop, List.map_cons, List.sum_cons]
    rw [ih]
    simp [add_assoc]

theorem lookup_of_mem {V : Type} : ∀ (l : List (String × V)), (l.map Prod.fst).Nodup → ∀ n v, (n, v) ∈ l → l.lookup n = some v := by
  intro l
  induction l with
  | nil => simp
  | cons p l ih =>
    obtain ⟨m, w⟩ := p
    intro hd n v hm
    rw [List.map_cons, List.nodup_cons] at hd
    rw [List.lookup_cons]
    rcases List.mem_cons.mp hm with h | h
    · cases h; simp
    · have : n ≠ m := by rintro rfl; exact hd.1 (List.mem_map.mpr ⟨_, h, rfl⟩)
      rw [beq_false_of_ne this]
      exact ih hd.2 n v h

theorem lookup_of_not_mem {V : Type} (l : List (String × V)) (n : String) (h : n ∉ l.map Prod.fst) : l.lookup n = none := by
  rw [List.lookup_eq_none_iff]
  intro p hp
  rw [bne_iff_ne]
  rintro rfl
  exact h (List.mem_map.mpr ⟨p, hp, rfl⟩)

/-- C108: the total loss is the sum of the components' values, the `i`-th called with the state under its name and its own key; each
component's new state and auxiliary data are found under its name, and nothing is found under other names. -/
theorem c108_total (comps : List (Component S A K)) (key : K) (hd : (comps.map Component.name).Nodup) :
    (totalLoss split comps state key).1 = ((comps.mapIdx fun i c => (c.run (state c.name) (subkey split key i)).1)).sum ∧
    (∀ (i : ℕ) (hi : i < comps.length),
      (totalLoss split comps state key).2.1 comps[i].name = (comps[i].run (state comps[i].name) (subkey split key i)).2.1 ∧
      (totalLoss split comps state key).2.2 comps[i].name = some (comps[i].run (state comps[i].name) (subkey split key i)).2.2) ∧
    (∀ n, n ∉ comps.map Component.name → (totalLoss split comps state key).2.1 n = none ∧ (totalLoss split comps state key).2.2 n = none) := by
  have hnames : (results split state comps key).map Prod.fst = comps.map Component.name := by
    refine List.ext_getElem (by simp [results]) fun i h1 h2 => by simp [results]
  refine ⟨?_, ?_, ?_⟩
  · simp only [totalLoss, loop_eq, zero_add]
    congr 1
    refine List.ext_getElem (by simp [results]) fun i h1 h2 => by simp [results]
  · intro i hi
    have hmem : (comps[i].name, comps[i].run (state comps[i].name) (subkey split key i)) ∈ results split state comps key := by
      unfold results
      rw [List.mem_iff_getElem]
      exact ⟨i, by simpa using hi, by simp⟩
    simp only [totalLoss, loop_eq, List.nil_append, fieldOf]
    constructor
    · rw [lookup_of_mem ((results split state comps key).map fun r => (r.1, r.2.2.1)) (by rw [List.map_map]; exact hnames ▸ hd) comps[i].name
        (comps[i].run (state comps[i].name) (subkey split key i)).2.1 (List.mem_map.mpr ⟨_, hmem, rfl⟩)]
      rfl
    · rw [lookup_of_mem ((results split state comps key).map fun r => (r.1, r.2.2.2)) (by rw [List.map_map]; exact hnames ▸ hd) comps[i].name
        (comps[i].run (state comps[i].name) (subkey split key i)).2.2 (List.mem_map.mpr ⟨_, hmem, rfl⟩)]
  · intro n hn
    simp only [totalLoss, loop_eq, List.nil_append, fieldOf]
    constructor
    · rw [lookup_of_not_mem _ n (by rw [List.map_map]; exact hnames ▸ hn)]; rfl
    · rw [lookup_of_not_mem _ n (by rw [List.map_map]; exact hnames ▸ hn)]

theorem grad_loop (comps : List (Component S A K)) : ∀ (key : K) (acc : ℝ) (g : List ℝ),
    comps.mapIdx (fun i c => c.grad (state c.name) (subkey split key i)) = g.map some →
    totalGrad split state comps key (some acc) = some (acc + g.sum) := by
  induction comps with
  | nil => intro key acc g h; cases g with
    | nil => simp [totalGrad]
    | cons a g => simp at h
  | cons c cs ih =>
    intro key acc g h
    rw [List.mapIdx_cons] at h
    cases g with
    | nil => simp at h
    | cons a g =>
      rw [List.map_cons, List.cons.injEq] at h
      obtain ⟨h1, h2⟩ := h
      have h1 : c.grad (state c.name) (split key).2 = some a := h1
      simp only [← subkey_succ] at h2
      unfold totalGrad
      rw [h1, show nadd (some acc) (some a) = some (acc + a) from rfl, ih _ _ g h2, List.sum_cons, add_assoc]

/-- C108: the gradient of the total loss is the sum of the components' gradients, with the same states and keys as for the values. -/
theorem c108_gradient (comps : List (Component S A K)) (key : K) (g : List ℝ)
    (h : comps.mapIdx (fun i c => c.grad (state c.name) (subkey split key i)) = g.map some) :
    totalGrad split state comps key (some 0) = some g.sum := by
  rw [grad_loop split state comps key 0 g h, zero_add]

/-- C108: the penalties report a loss of 0, so the total loss is the energy, whichever penalties are present; the energy is computed with the
same key and state in each case. -/
theorem c108_energy (vmc spin overlap : Component S A K) (hn : vmc.name = "vmc" ∧ spin.name = "spin" ∧ overlap.name = "overlap")
    (hs : ∀ s k, (spin.run s k).1 = 0) (ho : ∀ s k, (overlap.run s k).1 = 0) (withSpin withOverlap : Bool) (key : K) :
    (totalLoss split (components vmc spin overlap withSpin withOverlap) state key).1 = (vmc.run (state "vmc") (split key).2).1 ∧
    (totalLoss split (components vmc spin overlap withSpin withOverlap) state key).2.2 "vmc" = some (vmc.run (state "vmc") (split key).2).2.2 ∧
    ((totalLoss split (components vmc spin overlap withSpin withOverlap) state key).2.2 "spin").isSome = withSpin ∧
    ((totalLoss split (components vmc spin overlap withSpin withOverlap) state key).2.2 "overlap").isSome = withOverlap := by
  obtain ⟨h1, h2, h3⟩ := hn
  cases withSpin <;> cases withOverlap <;>
    simp [totalLoss, components, lossLoop, h1, h2, h3, hs, ho, fieldOf, List.lookup]

/-- C108: a state for a penalty that is not part of the loss does not come back: its entry is empty afterwards. -/
theorem c108_state_dropped (vmc spin overlap : Component S A K) (hn : vmc.name = "vmc" ∧ spin.name = "spin" ∧ overlap.name = "overlap")
    (withOverlap : Bool) (step data : Option S) (key : K) :
    (totalLoss split (components vmc spin overlap false withOverlap) (buildFuncState step data) key).2.1 "spin" = none := by
  obtain ⟨h1, h2, h3⟩ := hn
  cases withOverlap <;> simp [totalLoss, components, lossLoop, h1, h3, fieldOf, List.lookup]

/-- C108: with the states made by `build_func_state` the spin penalty is run with the given step and the overlap penalty with the given data,
and what they return is found under their names. -/
theorem c108_state (vmc spin overlap : Component S A K) (hn : vmc.name = "vmc" ∧ spin.name = "spin" ∧ overlap.name = "overlap")
    (step data : Option S) (key : K) :
    (totalLoss split (components vmc spin overlap true true) (buildFuncState step data) key).2.1 "vmc" = (vmc.run none (subkey split key 0)).2.1 ∧
    (totalLoss split (components vmc spin overlap true true) (buildFuncState step data) key).2.1 "spin" = (spin.run step (subkey split key 1)).2.1 ∧
    (totalLoss split (components vmc spin overlap true true) (buildFuncState step data) key).2.1 "overlap" =
      (overlap.run data (subkey split key 2)).2.1 := by
  obtain ⟨h1, h2, h3⟩ := hn
  simp [totalLoss, components, lossLoop, h1, h2, h3, fieldOf, List.lookup, buildFuncState, subkey]

end Loop

/-- C108: the overlap penalty reports 0 and returns its state. -/
theorem c108_overlap_zero {S : Type} (big : ℝ) (bound : ℝ × ℝ) (state : S) (targets : List Target) (weights : List ℝ) (logGrads : List (List F))
    (r : ℝ × S × List (Option ℝ) × Option ℝ) (h : overlapLoss big bound state targets weights logGrads = some r) :
    r.1 = 0 ∧ r.2.1 = state ∧ r.2.2.1.length = targets.length := by
  unfold overlapLoss at h
  rw [Option.map_eq_some_iff] at h
  obtain ⟨g, -, rfl⟩ := h
  simp

/-- C108: which keyword arguments reach which component: exactly those it names, in the order given. -/
theorem c108_kwargs {V : Type} (params : List String) (kwargs : List (String × V)) (kv : String × V) :
    (kv ∈ relevantKwargs params kwargs ↔ kv ∈ kwargs ∧ kv.1 ∈ params) ∧ (relevantKwargs params kwargs).Sublist kwargs := by
  unfold relevantKwargs
  constructor
  · simp
  · exact List.filter_sublist

/-- C108: no keyword argument (other than the two positional parameters) is taken by two components. -/
theorem c108_one_component (k : String) (h : k ≠ "signed_network" ∧ k ≠ "local_energy") :
    ¬ (k ∈ vmcParams ∧ k ∈ spinParams) ∧ ¬ (k ∈ vmcParams ∧ k ∈ overlapParams) ∧ ¬ (k ∈ spinParams ∧ k ∈ overlapParams) := by
  obtain ⟨h1, h2⟩ := h
  simp only [vmcParams, spinParams, overlapParams, List.mem_cons, List.not_mem_nil, or_false, h1, h2, false_or]
  refine ⟨?_, ?_, ?_⟩ <;> rintro ⟨a, b⟩ <;> (first | (rcases a with rfl | rfl | rfl | rfl) | (rcases a with rfl | rfl | rfl)) <;> simp at b

/-- C108: a keyword argument that no component names is dropped without an error: the components are called as if it were not there. -/
theorem c108_unknown_dropped {V : Type} (withSpin withOverlap : Bool) (kwargs : List (String × V)) (k : String) (v : V)
    (h : k ∉ vmcParams ∧ k ∉ spinParams ∧ k ∉ overlapParams) :
    makeLoss withSpin withOverlap ((k, v) :: kwargs) = makeLoss withSpin withOverlap kwargs := by
  have hr : ∀ params : List String, k ∉ params → relevantKwargs params ((k, v) :: kwargs) = relevantKwargs params kwargs := by
    intro params hp
    unfold relevantKwargs
    rw [List.filter_cons_of_neg (by simpa using hp)]
  unfold makeLoss invoke
  rw [hr _ h.1, hr _ h.2.1, hr _ h.2.2]

/-- C108: assembling succeeds exactly if the numbers of electrons are given for a spin penalty, and the options, the target states and their
weights for an overlap penalty. -/
theorem c108_required {V : Type} (withSpin withOverlap : Bool) (kwargs : List (String × V)) :
    (makeLoss withSpin withOverlap kwargs).isSome ↔
      (withSpin = true → "nspins" ∈ kwargs.map Prod.fst) ∧
      (withOverlap = true → "optim_cfg" ∈ kwargs.map Prod.fst ∧ "overlap_wf" ∈ kwargs.map Prod.fst ∧ "overlap_weights" ∈ kwargs.map Prod.fst) := by
  have hmem : ∀ (params : List String) (k : String), k ∈ params →
      (k ∈ (relevantKwargs params kwargs).map Prod.fst ↔ k ∈ kwargs.map Prod.fst) := by
    intro params k hk
    simp only [List.mem_map]
    constructor
    · rintro ⟨p, hp, rfl⟩; exact ⟨p, (c108_kwargs params kwargs p).1.mp hp |>.1, rfl⟩
    · rintro ⟨p, hp, rfl⟩; exact ⟨p, (c108_kwargs params kwargs p).1.mpr ⟨hp, hk⟩, rfl⟩
  have hv : (invoke vmcParams vmcRequired kwargs) = some (relevantKwargs vmcParams kwargs) := by simp [invoke, vmcRequired]
  have hs : (invoke spinParams spinRequired kwargs).isSome ↔ "nspins" ∈ kwargs.map Prod.fst := by
    unfold invoke
    rw [← hmem spinParams "nspins" (by simp [spinParams])]
    generalize (relevantKwargs spinParams kwargs) = l
    by_cases h : "nspins" ∈ l.map Prod.fst <;> simp_all [spinRequired]
  have ho : (invoke overlapParams overlapRequired kwargs).isSome ↔
      "optim_cfg" ∈ kwargs.map Prod.fst ∧ "overlap_wf" ∈ kwargs.map Prod.fst ∧ "overlap_weights" ∈ kwargs.map Prod.fst := by
    unfold invoke
    rw [← hmem overlapParams "optim_cfg" (by simp [overlapParams]), ← hmem overlapParams "overlap_wf" (by simp [overlapParams]),
      ← hmem overlapParams "overlap_weights" (by simp [overlapParams])]
    generalize (relevantKwargs overlapParams kwargs) = l
    by_cases h1 : "optim_cfg" ∈ l.map Prod.fst <;> by_cases h2 : "overlap_wf" ∈ l.map Prod.fst <;>
      by_cases h3 : "overlap_weights" ∈ l.map Prod.fst <;> simp_all [overlapRequired]
  unfold makeLoss
  rw [hv, ← hs, ← ho]
  cases withSpin <;> cases withOverlap <;> cases invoke spinParams spinRequired kwargs <;> cases invoke overlapParams overlapRequired kwargs <;>
    simp

/-- A misspelt option of the energy has no effect: the default is used. -/
example : makeLoss false false [("clip_local_enrgy", (5 : ℕ)), ("rm_outlier", 1)] = some ([("rm_outlier", 1)], none, none) := by rfl

/-- Three components: the energy 7 with gradient 1, penalties with gradients 2 and 3. -/
example : totalGrad (K := ℕ) (S := ℕ) (A := Unit) (fun k => (k + 2, k + 1)) (buildFuncState (some 4) none)
    (components ⟨"vmc", fun _ k => (7 + k, none, ()), fun _ _ => some 1⟩ ⟨"spin", fun s _ => (0, s, ()), fun _ _ => some 2⟩
      ⟨"overlap", fun s _ => (0, s, ()), fun _ _ => some 3⟩ true true) 0 (some 0) = some 6 := by
  rw [c108_gradient _ _ _ _ [1, 2, 3] (by rfl)]
  norm_num

section Law
variable {X : Type} [MeasurableSpace X] {μ : Measure X}

/-- C108: what the total gradient descends. With expectations over `ψ²` for sample means, the energy's covariance, the spin penalty's gradient
and those of the overlaps add up to half the derivative of the energy plus the weighted square of the penalty plus the weighted squared
overlaps. `hsym` says that the local energies are those of a symmetric operator. -/
theorem c108_objective (ψ ψ' El El' P P' : ℝ → X → ℝ) (targets : List ((X → ℝ) × ℝ)) (θ w : ℝ)
    (hN : DiffUnder μ (fun t x => ψ t x ^ 2) (fun t x => 2 * ψ t x * ψ' t x) θ)
    (hE : DiffUnder μ (fun t x => ψ t x ^ 2 * El t x) (fun t x => 2 * ψ t x * ψ' t x * El t x + ψ t x ^ 2 * El' t x) θ)
    (hM : DiffUnder μ (fun t x => ψ t x ^ 2 * P t x) (fun t x => 2 * ψ t x * ψ' t x * P t x + ψ t x ^ 2 * P' t x) θ)
    (hS : ∀ T ∈ targets, DiffUnder μ (fun t x => ψ t x * T.1 x) (fun t x => ψ' t x * T.1 x) θ ∧ (∀ᵐ x ∂μ, T.1 x ≠ 0) ∧ ∫ x, T.1 x ^ 2 ∂μ ≠ 0)
    (hsym : ∫ x, ψ θ x ^ 2 * El' θ x ∂μ = 0)
    (h0 : ∀ᵐ x ∂μ, ψ θ x ≠ 0) (hIE : Integrable (fun x => ψ θ x * ψ' θ x * El θ x) μ) (hI : Integrable (fun x => ψ θ x * ψ' θ x * P θ x) μ)
    (hn : ∫ x, ψ θ x ^ 2 ∂μ ≠ 0) :
    HasDerivAt (fun t => expect μ (ψ t) (El t) + w * expect μ (ψ t) (P t) ^ 2 + (targets.map fun T => T.2 * overlapSq μ (ψ t) T.1).sum)
      (2 * (covOf (expect μ (ψ θ)) (El θ) (fun x => ψ' θ x / ψ θ x) +
        penaltyGradient w (expect μ (ψ θ)) (P θ) (fun x => ψ' θ x / ψ θ x) (P' θ) +
        (targets.map fun T => overlapGradient T.2 (expect μ T.1) (expect μ (ψ θ)) (ψ θ) T.1 (fun x => ψ' θ x / ψ θ x)).sum)) θ := by
  have d1 := expect_hasDerivAt ψ ψ' El El' θ hN hE h0 hIE hn
  have d2 := c106_derivative ψ ψ' P P' θ w hN hM h0 hI hn
  have d3 : HasDerivAt (fun t => (targets.map fun T => T.2 * overlapSq μ (ψ t) T.1).sum)
      (2 * (targets.map fun T => overlapGradient T.2 (expect μ T.1) (expect μ (ψ θ)) (ψ θ) T.1 (fun x => ψ' θ x / ψ θ x)).sum) θ := by
    induction targets with
    | nil => simpa using hasDerivAt_const θ (0 : ℝ)
    | cons T l ih =>
      obtain ⟨a1, a2, a3⟩ := hS T (by simp)
      have e1 := c107_derivative ψ ψ' T.1 θ T.2 hN a1 h0 a2 hn a3
      have e2 := ih fun U hU => hS U (List.mem_cons_of_mem _ hU)
      simp only [List.map_cons, List.sum_cons]
      rw [mul_add]
      exact e1.add e2
  refine ((d1.add d2).add d3).congr_deriv ?_
  have : expect μ (ψ θ) (El' θ) = 0 := by unfold expect; rw [hsym, zero_div]
  rw [this]
  ring

end Law
end Jaqmc.LegacyLoss.Props
