import Verif.Model.LaplacianControl
import Verif.Lemmas.LaplacianWrap
import Verif.Props.Interp
/-! Proof of C44: whole programs. -/
namespace Jaqmc.Laplacian
open Spec Filter Topology
open Jaqmc.Interp (Atom Err Eqn Jaxpr)

/-! ### Stores are functorial -/

def mapAtom {A B : Type} (φ : A → B) : Atom A → Atom B
  | .lit v => .lit (φ v)
  | .var x => .var x

theorem values_map {A B E : Type} (φ : A → B) (S : ℕ → Option A) : ∀ as : List (Atom A),
    (Interp.Spec.values (fun x => (S x).map φ) (as.map (mapAtom φ)) : Except (Err E) _) =
      (Interp.Spec.values S as).map (List.map φ)
  | [] => rfl
  | .lit v :: as => by
    have ih := values_map (E := E) φ S as
    simp only [List.map_cons, mapAtom, Interp.Spec.values, Interp.Spec.value, Bind.bind, Except.bind, ih]
    cases (Interp.Spec.values S as : Except (Err E) _) <;> rfl
  | .var x :: as => by
    have ih := values_map (E := E) φ S as
    simp only [List.map_cons, mapAtom, Interp.Spec.values, Interp.Spec.value, Bind.bind, Except.bind, ih]
    cases S x with
    | none => rfl
    | some v => cases (Interp.Spec.values S as : Except (Err E) _) <;> rfl

theorem bind_map {A B : Type} (φ : A → B) : ∀ (xs : List ℕ) (S : ℕ → Option A) (vs : List A),
    (fun x => (Interp.Spec.bind S xs vs x).map φ) = Interp.Spec.bind (fun x => (S x).map φ) xs (vs.map φ)
  | [], _, _ => by simp [Interp.Spec.bind]
  | _ :: _, _, [] => by simp [Interp.Spec.bind]
  | x :: xs, S, v :: vs => by
    simp only [Interp.Spec.bind, List.map_cons]
    rw [bind_map φ xs]
    congr 1
    funext y
    split <;> rfl

/-- Everything found in a store that was there before or has just been bound. -/
theorem bind_mem {A : Type} (P : A → Prop) : ∀ (xs : List ℕ) (S : ℕ → Option A) (vs : List A),
    (∀ x a, S x = some a → P a) → (∀ a ∈ vs, P a) → ∀ x a, Interp.Spec.bind S xs vs x = some a → P a
  | [], _, _, hS, _ => by simpa [Interp.Spec.bind] using hS
  | _ :: _, _, [], hS, _ => by simpa [Interp.Spec.bind] using hS
  | x :: xs, S, v :: vs, hS, hv => by
    refine bind_mem P xs _ vs (fun y a h => ?_) fun a ha => hv a (List.mem_cons_of_mem _ ha)
    by_cases e : y = x
    · rw [if_pos e] at h
      cases h
      exact hv v List.mem_cons_self
    · rw [if_neg e] at h
      exact hS y a h

theorem values_mem {A E : Type} (P : A → Prop) (S : ℕ → Option A) (hS : ∀ x a, S x = some a → P a) :
    ∀ (as : List (Atom A)), (∀ v, Atom.lit v ∈ as → P v) → ∀ vs, (Interp.Spec.values S as : Except (Err E) _) = .ok vs →
      ∀ a ∈ vs, P a
  | [], _, vs, h => by cases h; simp
  | .lit v :: as, hl, vs, h => by
    simp only [Interp.Spec.values, Interp.Spec.value, Bind.bind, Except.bind] at h
    cases hr : (Interp.Spec.values S as : Except (Err E) _) with
    | error e => simp only [hr] at h; cases h
    | ok ws =>
      simp only [hr] at h
      cases h
      intro a ha
      rcases List.mem_cons.1 ha with rfl | ha
      · exact hl _ List.mem_cons_self
      · exact values_mem P S hS as (fun v hv => hl v (List.mem_cons_of_mem _ hv)) ws hr a ha
  | .var x :: as, hl, vs, h => by
    simp only [Interp.Spec.values, Interp.Spec.value, Bind.bind, Except.bind] at h
    cases hx : S x with
    | none => simp only [hx] at h; cases h
    | some v =>
      simp only [hx] at h
      cases hr : (Interp.Spec.values S as : Except (Err E) _) with
      | error e => simp only [hr] at h; cases h
      | ok ws =>
        simp only [hr] at h
        cases h
        intro a ha
        rcases List.mem_cons.1 ha with rfl | ha
        · exact hS x _ hx
        · exact values_mem P S hS as (fun v hv => hl v (List.mem_cons_of_mem _ hv)) ws hr a ha

variable {κ : Type} [Fintype κ]

/-- A value together with the curves it describes. -/
abbrev Pr (κ : Type) := (κ → ℝ → Arr) × TVal κ

def litP : Atom Arr → Atom (Pr κ) := mapAtom fun v => (fun _ _ => v, .plain v)

def goodP (p : Pr κ) : Prop := Describes p.1 p.2

theorem litP_snd (as : List (Atom Arr)) : (as.map litP).map (mapAtom Prod.snd) = as.map (liftA (κ := κ)) := by
  rw [List.map_map]
  refine List.map_congr_left fun a _ => ?_
  cases a <;> rfl

theorem litP_at (k : κ) (s : ℝ) (as : List (Atom Arr)) : (as.map litP).map (mapAtom fun p : Pr κ => p.1 k s) = as := by
  rw [List.map_map]
  conv_rhs => rw [← List.map_id as]
  refine List.map_congr_left fun a _ => ?_
  cases a <;> rfl

theorem litP_base (as : List (Atom Arr)) : (as.map litP).map (mapAtom fun p : Pr κ => p.2.primal) = as := by
  rw [List.map_map]
  conv_rhs => rw [← List.map_id as]
  refine List.map_congr_left fun a _ => ?_
  cases a <;> rfl

theorem litP_good (as : List (Atom Arr)) : ∀ v : Pr κ, Atom.lit v ∈ as.map litP → goodP v := by
  intro v hv
  obtain ⟨a, -, ha⟩ := List.mem_map.1 hv
  cases a with
  | lit w =>
    cases ha
    intro k
    exact Eventually.of_forall fun _ => rfl
  | var x => cases ha

theorem good_forall₂ {ps : List (Pr κ)} (h : ∀ p ∈ ps, goodP p) : List.Forall₂ Describes (ps.map Prod.fst) (ps.map Prod.snd) := by
  rw [List.forall₂_map_left_iff, List.forall₂_map_right_iff, List.forall₂_same]
  exact h

/-- The curves and the values, paired. -/
theorem forall₂_zip {γs : List (κ → ℝ → Arr)} {vs : List (TVal κ)} (h : List.Forall₂ Describes γs vs) :
    ∃ ps : List (Pr κ), ps.map Prod.fst = γs ∧ ps.map Prod.snd = vs ∧ ∀ p ∈ ps, goodP p := by
  induction h with
  | nil => exact ⟨[], rfl, rfl, by simp⟩
  | @cons γ v γs vs h _ ih =>
    obtain ⟨ps, h1, h2, h3⟩ := ih
    refine ⟨(γ, v) :: ps, by simp [h1], by simp [h2], fun p hp => ?_⟩
    rcases List.mem_cons.1 hp with rfl | hp
    · exact h
    · exact h3 p hp

/-- One equation: the handler or, without tracked inputs, the primitive itself. -/
theorem evalEqn_sound {pr : Prim κ} (h : SoundFor pr.bind pr.rule pr.ok) : SoundFor pr.bind pr.evalEqn pr.ok := by
  intro γs vs hd hok outs ho
  unfold Prim.evalEqn at ho
  by_cases ht : vs.any TVal.isTracked
  · rw [if_pos ht] at ho
    exact h γs vs hd hok outs ho
  · rw [if_neg ht] at ho
    exact plain_sound pr.bind γs vs hd (by simpa using ht) outs ho

/-- The plain equations of a program. -/
def plainEqns (es : List (LEqn κ)) : List (Eqn Arr String) := es.map fun e => ⟨e.invars, e.outvars, e.prim.bind⟩

def lapEqns (es : List (LEqn κ)) : List (Eqn (TVal κ) String) := es.map fun e => ⟨e.invars.map liftA, e.outvars, e.prim.evalEqn⟩

theorem map_ok {A B E : Type} {f : A → B} {x : Except E A} {b : B} (h : x.map f = .ok b) : ∃ a, x = .ok a ∧ f a = b := by
  cases x with
  | error e => cases h
  | ok a => exact ⟨a, rfl, by cases h; rfl⟩

theorem run_sound : ∀ (es : List (LEqn κ)), (∀ e ∈ es, SoundFor e.prim.bind e.prim.rule e.prim.ok) →
    ∀ (S : ℕ → Option (Pr κ)), (∀ x p, S x = some p → goodP p) →
      okEqns (fun x => (S x).map fun p => p.2.primal) es →
      ∀ M, (Interp.Spec.run (fun x => (S x).map Prod.snd) (lapEqns es) : Except (Err String) _) = .ok M →
        ∃ S' : ℕ → Option (Pr κ), (∀ x p, S' x = some p → goodP p) ∧ (M = fun x => (S' x).map Prod.snd) ∧
          (Interp.Spec.run (fun x => (S x).map fun p => p.2.primal) (plainEqns es) : Except (Err String) _) =
            .ok (fun x => (S' x).map fun p => p.2.primal) ∧
          ∀ k, ∀ᶠ s in 𝓝 (0 : ℝ), (Interp.Spec.run (fun x => (S x).map fun p => p.1 k s) (plainEqns es) : Except (Err String) _) =
            .ok (fun x => (S' x).map fun p => p.1 k s)
  | [], _, S, hS, _, M, hM => by
    cases hM
    exact ⟨S, hS, rfl, rfl, fun k => Eventually.of_forall fun s => rfl⟩
  | e :: es, hes, S, hS, hok, M, hM => by
    simp only [lapEqns, List.map_cons, Interp.Spec.run, Bind.bind, Except.bind] at hM
    have hv := values_map (E := String) Prod.snd S (e.invars.map litP)
    rw [litP_snd] at hv
    cases hps : (Interp.Spec.values S (e.invars.map litP) : Except (Err String) _) with
    | error er =>
      rw [hps] at hv
      simp only [hv, Except.map] at hM
      cases hM
    | ok ps =>
      rw [hps] at hv
      simp only [hv, Except.map] at hM
      have hgood := values_mem goodP S hS _ (litP_good e.invars) ps hps
      have hbase := values_map (E := String) (fun p : Pr κ => p.2.primal) S (e.invars.map litP)
      rw [litP_base, hps] at hbase
      simp only [Except.map] at hbase
      obtain ⟨hok1, hok2⟩ := hok _ hbase
      cases ho : e.prim.evalEqn (ps.map Prod.snd) with
      | error er => simp only [ho] at hM; cases hM
      | ok outs =>
        simp only [ho] at hM
        have hmm : (ps.map Prod.snd).map TVal.primal = ps.map fun p => p.2.primal := by rw [List.map_map]; rfl
        have hf := evalEqn_sound (hes e List.mem_cons_self) _ _ (good_forall₂ hgood) (by rw [hmm]; exact hok1) outs ho
        rw [hmm] at hf
        obtain ⟨hf1, δs, hf2, hf3⟩ := hf
        obtain ⟨qs, hq1, hq2, hq3⟩ := forall₂_zip hf2
        have hq2' : outs.map TVal.primal = qs.map fun p => p.2.primal := by rw [← hq2, List.map_map]; rfl
        subst hq2
        have hM' : (Interp.Spec.run (fun x => ((Interp.Spec.bind S e.outvars qs) x).map Prod.snd) (lapEqns es) :
            Except (Err String) _) = .ok M := by
          rw [bind_map]; exact hM
        have hok' := hok2 _ hf1
        rw [hq2', ← bind_map (fun p : Pr κ => p.2.primal)] at hok'
        obtain ⟨S', h1, h2, h3, h4⟩ := run_sound es (fun e' he => hes e' (List.mem_cons_of_mem _ he)) _
          (bind_mem goodP e.outvars S qs hS hq3) hok' M hM'
        refine ⟨S', h1, h2, ?_, fun k => ?_⟩
        · simp only [plainEqns, List.map_cons, Interp.Spec.run, Bind.bind, Except.bind, hbase, hf1]
          rw [hq2', ← bind_map (fun p : Pr κ => p.2.primal)]
          exact h3
        · filter_upwards [hf3 k, h4 k] with s e1 e2
          have hcur := values_map (E := String) (fun p : Pr κ => p.1 k s) S (e.invars.map litP)
          rw [litP_at, hps] at hcur
          simp only [Except.map] at hcur
          have e1' : e.prim.bind (ps.map fun p => p.1 k s) = .ok (qs.map fun p => p.1 k s) := by
            rw [List.map_map] at e1
            rw [← hq1, List.map_map] at e1
            exact e1
          simp only [plainEqns, List.map_cons, Interp.Spec.run, Bind.bind, Except.bind, hcur, e1']
          rw [← bind_map (fun p : Pr κ => p.1 k s)]
          exact e2

/-- No variable is read so often that its reference count would overflow (interpreter.py:80). -/
def Prog.fewReads (p : Prog κ) : Prop :=
  ∀ x, Interp.occ x p.lapJaxpr.outvars ≠ 0 →
    (Interp.Spec.reads x p.lapJaxpr.eqns + Interp.occ x p.lapJaxpr.outvars : Int) ≤ 2 ^ 31 - 1

theorem prog_sound (p : Prog κ) (hlim : p.fewReads) (h : ∀ e ∈ p.eqns, SoundFor e.prim.bind e.prim.rule e.prim.ok) :
    SoundFor p.runPlain p.runLap p.okRun := by
  intro γs vs hd hok outs ho
  obtain ⟨ps, hp1, hp2, hp3⟩ := forall₂_zip hd
  subst hp1 hp2
  unfold Prog.runLap at ho
  rw [(Jaqmc.Interp.Props.c43_same p.lapJaxpr (p.consts.map .plain) (ps.map Prod.snd) hlim).1] at ho
  let cs : List (Pr κ) := p.consts.map fun v => (fun _ _ => v, .plain v)
  have hc : ∀ a ∈ cs, goodP a := by
    intro a ha
    obtain ⟨v, -, rfl⟩ := List.mem_map.1 ha
    intro k
    exact Eventually.of_forall fun _ => rfl
  let S : ℕ → Option (Pr κ) := Interp.Spec.bind (Interp.Spec.bind (fun _ => none) p.constvars cs) p.invars ps
  have hS : ∀ x a, S x = some a → goodP a :=
    bind_mem goodP _ _ _ (bind_mem goodP _ _ _ (fun x a h => by cases h) hc) hp3
  have hstore : ∀ {B : Type} (φ : Pr κ → B), (fun x => (S x).map φ) =
      Interp.Spec.bind (Interp.Spec.bind (fun _ => none) p.constvars (cs.map φ)) p.invars (ps.map φ) := by
    intro B φ
    simp only [S]
    rw [bind_map, bind_map]
    rfl
  have hcs1 : cs.map Prod.snd = p.consts.map .plain := by simp only [cs, List.map_map]; rfl
  have hcs2 : cs.map (fun a => a.2.primal) = p.consts := by
    simp only [cs, List.map_map]; exact List.map_id _
  have hcs3 : ∀ k s, cs.map (fun a => a.1 k s) = p.consts := fun k s => by
    simp only [cs, List.map_map]; exact List.map_id _
  have hmm : (ps.map Prod.snd).map TVal.primal = ps.map fun a => a.2.primal := by rw [List.map_map]; rfl
  have hok' : okEqns (fun x => (S x).map fun a => a.2.primal) p.eqns := by
    rw [hstore, hcs2, ← hmm]; exact hok
  unfold Interp.Spec.eval at ho
  have hlap : p.lapJaxpr = ⟨p.constvars, p.invars, lapEqns p.eqns, p.outvars.map liftA⟩ := by
    rfl
  rw [hlap] at ho
  simp only [Bind.bind, Except.bind] at ho
  rw [← hcs1, ← hstore Prod.snd] at ho
  cases hM : (Interp.Spec.run (fun x => (S x).map Prod.snd) (lapEqns p.eqns) : Except (Err String) _) with
  | error er => rw [hM] at ho; cases er <;> cases ho
  | ok M =>
    rw [hM] at ho
    obtain ⟨S', h1, h2, h3, h4⟩ := run_sound p.eqns h S hS hok' M hM
    subst h2
    have hv := values_map (E := String) Prod.snd S' (p.outvars.map litP)
    rw [litP_snd] at hv
    simp only [hv] at ho
    cases hqs : (Interp.Spec.values S' (p.outvars.map litP) : Except (Err String) _) with
    | error er => rw [hqs] at ho; cases er <;> cases ho
    | ok qs =>
      rw [hqs] at ho
      cases ho
      have hgood := values_mem goodP S' h1 _ (litP_good p.outvars) qs hqs
      refine ⟨?_, qs.map Prod.fst, good_forall₂ hgood, fun k => ?_⟩
      · unfold Prog.runPlain Interp.Spec.eval
        have hb := values_map (E := String) (fun a : Pr κ => a.2.primal) S' (p.outvars.map litP)
        rw [litP_base, hqs] at hb
        rw [hmm]
        have h3' : (Interp.Spec.run (Interp.Spec.bind (Interp.Spec.bind (fun _ => none) p.constvars p.consts) p.invars
            (ps.map fun a => a.2.primal)) (plainEqns p.eqns) : Except (Err String) _) =
              .ok (fun x => (S' x).map fun p => p.2.primal) := by
          rw [← hcs2, ← hstore]; exact h3
        simp only [Bind.bind, Except.bind]
        unfold Prog.plainJaxpr
        unfold plainEqns at h3'
        simp only [h3', hb, Except.map, flatten, List.map_map]
        rfl
      · filter_upwards [h4 k] with s e
        unfold Prog.runPlain Interp.Spec.eval
        have hb := values_map (E := String) (fun a : Pr κ => a.1 k s) S' (p.outvars.map litP)
        rw [litP_at, hqs] at hb
        have h3' : (Interp.Spec.run (Interp.Spec.bind (Interp.Spec.bind (fun _ => none) p.constvars p.consts) p.invars
            (ps.map fun a => a.1 k s)) (plainEqns p.eqns) : Except (Err String) _) =
              .ok (fun x => (S' x).map fun p => p.1 k s) := by
          rw [← hcs3 k s, ← hstore]; exact e
        simp only [Bind.bind, Except.bind]
        unfold Prog.plainJaxpr
        unfold plainEqns at h3'
        have hmk : ((ps.map Prod.fst).map fun γ => γ k s) = ps.map fun a => a.1 k s := by rw [List.map_map]; rfl
        rw [hmk]
        simp only [h3', hb, Except.map, flatten, List.map_map]
        rfl

end Jaqmc.Laplacian
