import Verif.Model.Keys
import Verif.Spec.Keys
import Mathlib.Tactic.Ring
import Mathlib.Tactic.Linarith
/-! # Random keys: C126 -/

namespace Jaqmc.Keys.Props
open Jaqmc.Keys Jaqmc.Keys.Spec

/-! ### Relatedness -/

theorem unrelated_symm {a b : Key} (h : Unrelated a b) : Unrelated b a :=
  fun s t e => h t s e.symm

theorem unrelated_child {k : Key} {i j : Nat} (h : i ≠ j) (s t : Key) :
    Unrelated (child k i ++ s) (child k j ++ t) := by
  intro u v e
  simp only [child, List.append_assoc, List.append_cancel_left_eq, List.cons_append,
    List.cons.injEq] at e
  exact h e.1

theorem self_related (a : Key) : ¬ Unrelated a a := fun h => h [] [] rfl

/-- The draws of a piece of code given the key `k`: inside `k`, pairwise unrelated. -/
def Good (k : Key) (l : List Key) : Prop := (∀ u ∈ l, ∃ s, u = k ++ s) ∧ l.Pairwise Unrelated

theorem good_nil (k : Key) : Good k [] := ⟨by simp, List.Pairwise.nil⟩

theorem good_self (k : Key) : Good k [k] := ⟨by simp, by simp⟩

theorem good_up {k : Key} {i : Nat} {l : List Key} (h : Good (child k i) l) : Good k l := by
  refine ⟨fun u hu => ?_, h.2⟩
  obtain ⟨s, rfl⟩ := h.1 u hu
  exact ⟨i :: s, by simp [child]⟩

theorem separate_of {k : Key} {i j : Nat} (hij : i ≠ j) {l m : List Key}
    (hl : Good (child k i) l) (hm : Good (child k j) m) : Separate l m := by
  intro x hx y hy
  obtain ⟨s, rfl⟩ := hl.1 x hx
  obtain ⟨t, rfl⟩ := hm.1 y hy
  exact unrelated_child hij s t

theorem good_append {k : Key} {l m : List Key} (hl : Good k l) (hm : Good k m)
    (hs : Separate l m) : Good k (l ++ m) := by
  refine ⟨fun u hu => ?_, List.pairwise_append.2 ⟨hl.2, hm.2, hs⟩⟩
  rcases List.mem_append.1 hu with h | h
  · exact hl.1 u h
  · exact hm.1 u h

theorem good_append_child {k : Key} {i j : Nat} (hij : i ≠ j) {l m : List Key}
    (hl : Good (child k i) l) (hm : Good (child k j) m) : Good k (l ++ m) :=
  good_append (good_up hl) (good_up hm) (separate_of hij hl hm)

theorem separate_append_left {l m n : List Key} (h : Separate l n) (h' : Separate m n) :
    Separate (l ++ m) n := by
  intro x hx
  rcases List.mem_append.1 hx with hx | hx
  · exact h x hx
  · exact h' x hx

theorem separate_append_right {l m n : List Key} (h : Separate n l) (h' : Separate n m) :
    Separate n (l ++ m) := by
  intro x hx y hy
  rcases List.mem_append.1 hy with hy | hy
  · exact h x hx y hy
  · exact h' x hx y hy

theorem separate_nil_left (l : List Key) : Separate [] l := by intro x hx; simp at hx
theorem separate_nil_right (l : List Key) : Separate l [] := by intro x _ y hy; simp at hy

/-- Handing the children `0, …, n-1` of a key to pieces of code which respect their keys. -/
theorem good_range {k : Key} (f : Nat → List Key) (n : Nat) (h : ∀ i < n, Good (child k i) (f i)) :
    Good k ((List.range n).flatMap f) := by
  refine ⟨fun u hu => ?_, ?_⟩
  · obtain ⟨i, hi, hu⟩ := List.mem_flatMap.1 hu
    exact (good_up (h i (List.mem_range.1 hi))).1 u hu
  · rw [List.pairwise_flatMap]
    refine ⟨fun i hi => (h i (List.mem_range.1 hi)).2, ?_⟩
    refine (List.nodup_range (n := n)).imp_of_mem ?_
    intro i j hi hj hij x hx y hy
    exact separate_of hij (h i (List.mem_range.1 hi)) (h j (List.mem_range.1 hj)) x hx y hy

/-! ### The leaves -/

theorem respects_unused : Respects unused := fun k => good_nil k
theorem respects_draws : Respects draws := fun k => good_self k

theorem respects_gaussian {n : Nat} (hn : n ≤ 1) : Respects (gaussianProposal n) := by
  intro k
  rcases Nat.le_one_iff_eq_zero_or_eq_one.1 hn with rfl | rfl
  · exact good_nil k
  · exact good_self k

theorem respects_sphere : Respects sphereProposal := fun k =>
  good_append_child (k := k) (i := 0) (j := 1) (by decide) (good_self _) (good_self _)

theorem good_mhUpdate {p : Consumer} (hp : Respects p) (k : Key) :
    Good k (mhUpdate p k).1 :=
  good_append_child (i := 1) (j := 2) (by decide) (hp _) (good_self _)

theorem good_mhLoop {p : Consumer} (hp : Respects p) : ∀ n k, Good k (mhLoop p n k)
  | 0, k => good_nil k
  | n + 1, k => by
    have ih := good_mhLoop hp n (child k 0)
    refine good_append (good_mhUpdate hp k) (good_up ih) ?_
    exact separate_append_left (separate_of (by decide) (hp _) ih)
      (separate_of (j := 0) (by decide) (good_self _) ih)

theorem respects_mcmc (steps : Nat) {p : Consumer} (hp : Respects p) :
    Respects (mcmcStep steps p) := by
  intro k
  unfold mcmcStep
  by_cases h : steps = 0
  · rw [if_pos h]; exact good_nil k
  · rw [if_neg h]; exact good_mhLoop hp steps k

theorem respects_rotations (n : Nat) : Respects (rotations n) := by
  intro k
  unfold rotations
  by_cases h : n = 0
  · rw [if_pos h]; exact good_nil k
  · rw [if_neg h]
    exact good_append_child (k := k) (i := 1) (j := 0) (by decide) (good_self _)
      (good_up (good_self (child (child k 0) 1)))

theorem respects_uniformSphere : Respects uniformSphere := fun k =>
  good_append_child (k := k) (i := 0) (j := 1) (by decide) (good_self _) (good_self _)

theorem respects_hydrogen : Respects hydrogenData := fun k => by
  have h : Good k ([child k 0] ++ [child k 1]) :=
    good_append_child (i := 0) (j := 1) (by decide) (good_self _) (good_self _)
  have h2 : Good k (([child k 0] ++ [child k 1]) ++ [child k 2]) :=
    good_append h (good_up (good_self (child k 2)))
      (separate_append_left (separate_of (i := 0) (j := 2) (by decide) (good_self _) (good_self _))
        (separate_of (i := 1) (j := 2) (by decide) (good_self _) (good_self _)))
  exact h2

theorem respects_spins : ∀ n, Respects (distributeSpins n)
  | 0 => fun k => good_nil k
  | n + 1 => fun k =>
    good_append_child (k := k) (i := 1) (j := 0) (by decide) (good_self _) (respects_spins n _)

theorem respects_atoms (n : Nat) : Respects (atomsData n) := fun k =>
  good_append_child (k := k) (i := 1) (j := 0) (by decide) (respects_spins n _) (good_self _)

/-! ### Plans and pipelines -/

theorem respects_planInit {ss : List Sampler} (h : ∀ s ∈ ss, Respects s.init)
    (h1 : ss.length ≤ 1 ∨ ∀ s ∈ ss, ∀ k, s.init k = []) : Respects (planInit ss) := by
  intro k
  rcases h1 with h1 | h1
  · match ss, h1 with
    | [], _ => exact good_nil k
    | [s], _ => simpa [planInit] using h s (by simp) k
  · have : planInit ss k = [] := by
      simpa [planInit] using fun s hs => h1 s hs k
    rw [this]; exact good_nil k

theorem respects_planStep : ∀ {ss : List Sampler}, (∀ s ∈ ss, Respects s.step) →
    Respects (planStep ss)
  | [], _ => fun k => good_nil k
  | s :: rest, h => fun k =>
    good_append_child (k := k) (i := 1) (j := 0) (by decide) (h s (by simp) _)
      (respects_planStep (fun s' hs' => h s' (by simp [hs'])) _)

theorem respects_perWalker (b : Nat) {f : Consumer} (hf : Respects f) :
    Respects (perWalker b f) := fun k => good_range _ b fun i _ => hf _

theorem good_pipelineInit {k : Key} : ∀ {es : List Estimator} (j : Nat),
    (∀ e ∈ es, Respects e.init) →
    Good k (pipelineInit es j k) ∧
      ∀ i < j, ∀ l, Good (child k i) l → Separate l (pipelineInit es j k)
  | [], j, _ => ⟨good_nil k, fun _ _ _ _ => separate_nil_right _⟩
  | e :: rest, j, h => by
    obtain ⟨g, s⟩ := good_pipelineInit (k := k) (es := rest) (j + 1)
      (fun e' he' => h e' (by simp [he']))
    have he : Good (child k j) (e.init (child k j)) := h e (by simp) _
    refine ⟨good_append (good_up he) g (s j (by omega) _ he), fun i hi l hl => ?_⟩
    exact separate_append_right (separate_of (by omega) hl he) (s i (by omega) l hl)

theorem respects_pipelineEvaluate : ∀ {es : List Estimator}, (∀ e ∈ es, Respects e.evaluate) →
    Respects (pipelineEvaluate es)
  | [], _ => fun k => good_nil k
  | e :: rest, h => fun k =>
    good_append_child (k := k) (i := 1) (j := 0) (by decide) (h e (by simp) _)
      (respects_pipelineEvaluate (fun e' he' => h e' (by simp [he'])) _)

/-! ### Stages -/

/-- All parts of a stage respect their keys, and at most one sampler draws when initialised. -/
structure Decent (st : Stage) : Prop where
  step : ∀ s ∈ st.samplers, Respects s.step
  init : ∀ s ∈ st.samplers, Respects s.init
  shared : st.samplers.length ≤ 1 ∨ ∀ s ∈ st.samplers, ∀ k, s.init k = []
  estInit : ∀ e ∈ st.estimators, Respects e.init
  evaluate : ∀ e ∈ st.estimators, Respects e.evaluate
  params : Respects st.initParams
  optInit : Respects st.optInit
  optUpdate : Respects st.optUpdate

theorem respects_createSampling {st : Stage} (h : Decent st) (given : Bool) :
    Respects (createSamplingState st given) := by
  intro k
  have hp : Good (child k 1) (if given then [] else st.initParams (child k 1)) := by
    cases given
    · exact h.params _
    · exact good_nil _
  have hi := respects_planInit h.init h.shared (child k 0)
  have he := (good_pipelineInit (k := child k 2) 0 h.estInit).1
  exact good_append (good_append_child (by decide) hp hi) (good_up he)
    (separate_append_left (separate_of (by decide) hp he) (separate_of (by decide) hi he))

theorem respects_create {st : Stage} (h : Decent st) (given : Bool) :
    Respects (createState st given) := by
  intro k
  unfold createState
  cases st.trains
  · exact respects_createSampling h given k
  · exact good_append_child (k := k) (i := 0) (j := 1) (by decide)
      (respects_createSampling h given _) (h.optInit _)

theorem respects_computeStep {st : Stage} (h : Decent st) : Respects (computeStep st) := by
  intro k
  have hs := respects_planStep h.step (child k 0)
  have he := respects_pipelineEvaluate h.evaluate (child k 1)
  have ho := h.optUpdate (child k 2)
  have hb : Good k (planStep st.samplers (child k 0) ++ pipelineEvaluate st.estimators (child k 1)) :=
    good_append_child (i := 0) (j := 1) (by decide) hs he
  unfold computeStep
  cases st.trains
  · exact hb
  · exact good_append hb (good_up ho)
      (separate_append_left (separate_of (i := 0) (j := 2) (by decide) hs ho)
        (separate_of (i := 1) (j := 2) (by decide) he ho))

theorem respects_mainLoop {st : Stage} (h : Decent st) : ∀ n, Respects (mainLoop st n)
  | 0 => fun k => good_nil k
  | n + 1 => fun k => good_append_child (k := k) (i := 1) (j := 0) (by decide)
      (respects_computeStep h _) (respects_mainLoop h n _)

/-- The burn-in draws and whatever is done with the key it hands back. -/
theorem good_burnInLoop {st : Stage} (h : Decent st) {f : Consumer} (hf : Respects f) :
    ∀ n k, Good k ((burnInLoop st n k).1 ++ f (burnInLoop st n k).2)
  | 0, k => hf k
  | n + 1, k => by
    have ih := good_burnInLoop h hf n (child k 0)
    have := good_append_child (k := k) (i := 1) (j := 0) (by decide)
      (respects_planStep h.step (child k 1)) ih
    simpa [burnInLoop] using this

theorem respects_deviceLoop {st : Stage} (h : Decent st) (n0 : Nat) :
    Respects (deviceLoop st n0) := by
  intro k
  have hm := respects_mainLoop h (st.iterations - n0)
  unfold deviceLoop
  dsimp only
  by_cases h0 : n0 = 0
  · rw [if_pos h0]
    unfold burnIn
    by_cases hb : st.burnIn ≤ 0
    · rw [if_pos hb]; exact hm k
    · rw [if_neg hb]; exact good_burnInLoop h hm _ k
  · rw [if_neg h0]; exact hm k

theorem respects_stageRun {st : Stage} (h : Decent st) (devices n0 : Nat) :
    Respects (stageRun st devices n0) := by
  intro k
  unfold stageRun
  by_cases hd : st.iterations ≤ n0
  · rw [if_pos hd]; exact good_nil k
  · rw [if_neg hd]; exact good_range _ devices fun d _ => respects_deviceLoop h n0 _

theorem respects_initData {data : Consumer} (h : Respects data) (p : Nat) :
    Respects (initData data p) := fun k => good_range _ p fun _ _ => h _

/-! ### C126 -/

/-- C126: in one training run, fresh or resumed, with or without pretraining, on any number of
processes and devices, no two draws of random numbers use related keys: the initial walkers of each
process, the initial parameters and states, every move and acceptance test of every sampler, every
estimate of every walker and every optimizer update, at every step on every device. -/
theorem c126_training (data : Consumer) (pretrain : Option Stage) (train : Stage) (m : Machine)
    (root : Key) (hd : Respects data) (hp : ∀ pre ∈ pretrain, Decent pre) (ht : Decent train) :
    (trainingDraws data pretrain train m root).Pairwise Unrelated := by
  have hdata := respects_initData hd m.processes (child root 1)
  unfold trainingDraws training
  dsimp only
  cases pretrain with
  | none =>
    have hc := respects_create ht false (child (child root 0) 1)
    have hr := respects_stageRun ht m.devices m.start (child (child root 0) 2)
    have h2 : Good (child root 0) _ := good_append_child (i := 1) (j := 2) (by decide) hc hr
    simpa using (good_append_child (k := root) (i := 1) (j := 0) (by decide) hdata h2).2
  | some pre =>
    have hpre := hp pre rfl
    have hc' := respects_create hpre false (child (child root 0) 1)
    have hr' := respects_stageRun hpre m.devices m.pretrainStart (child (child root 0) 2)
    have hc := respects_create ht true (child (child (child root 0) 0) 1)
    have hr := respects_stageRun ht m.devices m.start (child (child (child root 0) 0) 2)
    have h2 : Good (child (child root 0) 0) _ :=
      good_append_child (i := 1) (j := 2) (by decide) hc hr
    have h1 : Good (child root 0) _ := good_append_child (i := 1) (j := 2) (by decide) hc' hr'
    have h12 := good_append h1 (good_up h2)
      (separate_append_left (separate_of (by decide) hc' h2) (separate_of (by decide) hr' h2))
    have := (good_append_child (k := root) (i := 1) (j := 0) (by decide) hdata h12).2
    simpa [List.append_assoc] using this

/-- C126 for an evaluation run. -/
theorem c126_evaluation (data : Consumer) (st : Stage) (m : Machine) (root : Key)
    (hd : Respects data) (h : Decent st) :
    (evaluationDraws data st m root).Pairwise Unrelated := by
  have hdata := respects_initData hd m.processes (child root 1)
  have hc := respects_create h false (child (child root 0) 1)
  have hr := respects_stageRun h m.devices m.start (child (child (child root 0) 0) 1)
  have h2 : Good (child root 0) _ :=
    good_append (good_up hc) (good_up (good_up hr))
      (separate_of (k := child root 0) (i := 1) (j := 0) (by decide) hc (good_up hr))
  exact (good_append_child (k := root) (i := 1) (j := 0) (by decide) hdata h2).2

/-- C126: evaluating with the seed used in training does not replay the random numbers with which
the walkers moved, or the estimates were made, in pretraining or training. -/
theorem c126_evaluation_fresh (data data' : Consumer) (pretrain : Option Stage) (train st : Stage)
    (m m' : Machine) (root : Key) (hp : ∀ pre ∈ pretrain, Decent pre) (ht : Decent train)
    (h : Decent st) :
    Separate (evaluation data' st m' root).2.run (training data pretrain train m root).2.1.run ∧
    Separate (evaluation data' st m' root).2.run (training data pretrain train m root).2.2.run := by
  have hr := respects_stageRun h m'.devices m'.start (child (child (child root 0) 0) 1)
  unfold evaluation training
  dsimp only
  cases pretrain with
  | none =>
    have ht' := respects_stageRun ht m.devices m.start (child (child root 0) 2)
    exact ⟨separate_nil_right _, separate_of (k := child root 0) (i := 0) (j := 2) (by decide)
      (good_up hr) ht'⟩
  | some pre =>
    have hp' := respects_stageRun (hp pre rfl) m.devices m.pretrainStart (child (child root 0) 2)
    have ht' := respects_stageRun ht m.devices m.start (child (child (child root 0) 0) 2)
    exact ⟨separate_of (k := child root 0) (i := 0) (j := 2) (by decide) (good_up hr) hp',
      separate_of (k := child (child root 0) 0) (i := 1) (j := 2) (by decide) hr ht'⟩

/-- C126: the samplers, estimators and initialisers shipped with jaqmc respect their keys: MCMC
sampling of one field in space or on the sphere for any number of updates, the random rotations of
the effective core potential and the random points of the density matrix for every walker, and the
initial walkers of all applications. -/
theorem c126_shipped (steps batch nElec flips : Nat) :
    Respects (mcmcStep steps (gaussianProposal 1)) ∧ Respects (mcmcStep steps sphereProposal) ∧
    Respects (perWalker batch (rotations nElec)) ∧ Respects (perWalker batch uniformSphere) ∧
    Respects (perWalker batch unused) ∧
    Respects (atomsData flips) ∧ Respects uniformSphere ∧ Respects hydrogenData :=
  ⟨respects_mcmc steps (respects_gaussian (by decide)), respects_mcmc steps respects_sphere,
   respects_perWalker batch (respects_rotations nElec),
   respects_perWalker batch respects_uniformSphere, respects_perWalker batch respects_unused,
   respects_atoms flips, respects_uniformSphere, respects_hydrogen⟩

/-! Nobody is left without a key. -/

/-- Every sampler, estimator and optimizer draws once per call. -/
def counting (samplers estimators : Nat) (trains : Bool) (burnIn : Int) (iterations : Nat) : Stage :=
  { samplers := List.replicate samplers ⟨unused, draws⟩
    estimators := List.replicate estimators ⟨draws, draws⟩
    initParams := draws, optInit := draws, optUpdate := draws
    trains := trains, burnIn := burnIn, iterations := iterations }

theorem length_planStep (n : Nat) (k : Key) :
    (planStep (List.replicate n ⟨unused, draws⟩) k).length = n := by
  induction n generalizing k with
  | zero => rfl
  | succ n ih => simp [List.replicate_succ, planStep, draws, ih]

theorem length_pipeline (n : Nat) (k : Key) :
    (pipelineEvaluate (List.replicate n ⟨draws, draws⟩) k).length = n := by
  induction n generalizing k with
  | zero => rfl
  | succ n ih => simp [List.replicate_succ, pipelineEvaluate, draws, ih]

theorem length_computeStep (s e : Nat) (t : Bool) (b : Int) (n : Nat) (k : Key) :
    (computeStep (counting s e t b n) k).length = s + e + (if t then 1 else 0) := by
  unfold computeStep
  cases t <;> simp [counting, length_planStep, length_pipeline, draws, Nat.add_assoc]

theorem length_mainLoop (s e : Nat) (t : Bool) (b : Int) (n r : Nat) (k : Key) :
    (mainLoop (counting s e t b n) r k).length = r * (s + e + (if t then 1 else 0)) := by
  induction r generalizing k with
  | zero => simp [mainLoop]
  | succ r ih => rw [mainLoop, List.length_append, ih, length_computeStep]; ring

theorem length_burnIn (s e : Nat) (t : Bool) (b : Int) (n r : Nat) (k : Key) :
    (burnInLoop (counting s e t b n) r k).1.length = r * s := by
  induction r generalizing k with
  | zero => simp [burnInLoop]
  | succ r ih =>
    have := ih (child k 0)
    have h2 : (planStep (counting s e t b n).samplers (child k 1)).length = s :=
      length_planStep s _
    simp only [burnInLoop, List.length_append, this, h2]; ring

/-- C126: every call gets its own key.  A fresh stage calls each sampler once per burn-in step and
once per iteration, each estimator, and when training the optimizer, once per iteration, on every
device; a stage resumed at step `n0` does so for the remaining iterations and does no burn-in. -/
theorem c126_calls (s e : Nat) (t : Bool) (b : Int) (n devices n0 : Nat) (k : Key) :
    (stageRun (counting s e t b n) devices n0 k).length =
      devices * ((if n0 = 0 ∧ 0 < n then b.toNat * s else 0)
        + (n - n0) * (s + e + (if t then 1 else 0))) := by
  unfold stageRun
  by_cases hd : n ≤ n0
  · rw [if_pos (show (counting s e t b n).iterations ≤ n0 from hd)]
    have : n - n0 = 0 := by omega
    have h2 : ¬ (n0 = 0 ∧ 0 < n) := by omega
    simp [this, h2]
  · rw [if_neg (show ¬ (counting s e t b n).iterations ≤ n0 from hd)]
    have key : ∀ d, (deviceLoop (counting s e t b n) n0 (child k d)).length =
        (if n0 = 0 ∧ 0 < n then b.toNat * s else 0) + (n - n0) * (s + e + (if t then 1 else 0)) := by
      intro d
      unfold deviceLoop
      dsimp only
      have hit : (counting s e t b n).iterations = n := rfl
      have hbi : (counting s e t b n).burnIn = b := rfl
      rw [List.length_append, length_mainLoop, hit]
      congr 1
      by_cases h0 : n0 = 0
      · rw [if_pos h0, if_pos ⟨h0, by omega⟩]
        unfold burnIn
        rw [hbi]
        by_cases hb : b ≤ 0
        · rw [if_pos hb]
          have : b.toNat = 0 := Int.toNat_of_nonpos hb
          simp [this]
        · rw [if_neg hb]; exact length_burnIn s e t b n _ _
      · rw [if_neg h0, if_neg (by tauto)]; rfl
    rw [List.length_flatMap]
    have : (List.range devices).map
        (fun d => (deviceLoop (counting s e t b n) n0 (child k d)).length) =
        List.replicate devices ((if n0 = 0 ∧ 0 < n then b.toNat * s else 0)
          + (n - n0) * (s + e + (if t then 1 else 0))) := by
      rw [List.eq_replicate_iff]
      refine ⟨by simp, fun x hx => ?_⟩
      obtain ⟨d, _, rfl⟩ := List.mem_map.1 hx
      exact key d
    rw [this, List.sum_replicate_nat]

/-! What does not hold. -/

/-- C126 fails for samplers with a random initial state: all samplers of a plan are initialised with
the same key. -/
theorem c126_init_key_shared (f : Consumer) (k u : Key) (hu : u ∈ f k) :
    ¬ (planInit [⟨f, draws⟩, ⟨f, draws⟩] k).Pairwise Unrelated := by
  intro h
  simp only [planInit, List.flatMap_cons, List.flatMap_nil, List.append_nil] at h
  exact self_related u ((List.pairwise_append.1 h).2.2 u hu u hu)

/-- C126 fails for a sampler assigned to two or more fields: they are all moved with one key (the
consequences are C55). -/
theorem c126_fields_share_key (n : Nat) (hn : 2 ≤ n) : ¬ Respects (gaussianProposal n) := by
  intro h
  obtain ⟨m, rfl⟩ : ∃ m, n = m + 2 := ⟨n - 2, by omega⟩
  have := (h []).2
  simp only [gaussianProposal, List.replicate_succ, List.pairwise_cons] at this
  exact self_related [] (this.1 [] (by simp))

/-- A molecule: one electron sampler, kinetic, potential, ECP and total energy, loss gradient. -/
def moleculeStage (burnIn : Int) (iterations : Nat) : Stage :=
  { samplers := [⟨unused, mcmcStep 10 (gaussianProposal 1)⟩]
    estimators := [⟨unused, perWalker 4 unused⟩, ⟨unused, perWalker 4 (rotations 3)⟩,
      ⟨unused, perWalker 4 unused⟩]
    initParams := draws, optInit := draws, optUpdate := draws
    trains := true, burnIn := burnIn, iterations := iterations }

theorem molecule_decent (b : Int) (n : Nat) : Decent (moleculeStage b n) where
  step := by simpa [moleculeStage] using respects_mcmc 10 (respects_gaussian (le_refl 1))
  init := by simpa [moleculeStage] using respects_unused
  shared := Or.inl (by simp [moleculeStage])
  estInit := by simpa [moleculeStage] using respects_unused
  evaluate := by
    simp only [moleculeStage, List.mem_cons, List.not_mem_nil, or_false, forall_eq_or_imp, forall_eq]
    exact ⟨respects_perWalker 4 respects_unused, respects_perWalker 4 (respects_rotations 3),
      respects_perWalker 4 respects_unused⟩
  params := respects_draws
  optInit := respects_draws
  optUpdate := respects_draws

example : (trainingDraws (atomsData 2) (some (moleculeStage 10 100)) (moleculeStage 100 2000)
    ⟨2, 8, 0, 0⟩ []).Pairwise Unrelated :=
  c126_training _ _ _ _ _ (respects_atoms 2) (by simpa using molecule_decent 10 100)
    (molecule_decent 100 2000)

/-- On a small case: two burn-in steps, two iterations, two devices. -/
example : (stageRun (counting 1 2 true 2 2) 2 0 [7]).length = 2 * (2 * 1 + 2 * (1 + 2 + 1)) := by
  decide +kernel

end Jaqmc.Keys.Props
