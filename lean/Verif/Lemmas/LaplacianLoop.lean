import Verif.Lemmas.LaplacianProg
/-! Proof of C44: `while` and `scan`. -/
namespace Jaqmc.Laplacian
open Spec Filter Topology
open Jaqmc.Interp (Atom Err Eqn Jaxpr)

variable {κ : Type} [Fintype κ]

/-- The three readings of a list of values with their curves. -/
abbrev baseL (ps : List (Pr κ)) : List Arr := ps.map fun p => p.2.primal
abbrev curL (k : κ) (s : ℝ) (ps : List (Pr κ)) : List Arr := ps.map fun p => p.1 k s
abbrev valL (ps : List (Pr κ)) : List (TVal κ) := ps.map Prod.snd
def goodL (ps : List (Pr κ)) : Prop := ∀ p ∈ ps, goodP p

theorem goodL_append {ps qs : List (Pr κ)} (h : goodL ps) (h' : goodL qs) : goodL (ps ++ qs) := fun p hp => by
  rcases List.mem_append.1 hp with hp | hp
  exacts [h p hp, h' p hp]

theorem goodL_take {ps : List (Pr κ)} (n : ℕ) (h : goodL ps) : goodL (ps.take n) := fun p hp => h p (List.mem_of_mem_take hp)
theorem goodL_drop {ps : List (Pr κ)} (n : ℕ) (h : goodL ps) : goodL (ps.drop n) := fun p hp => h p (List.mem_of_mem_drop hp)

/-- `SoundFor` in terms of pairs. -/
def PairSound (f : List Arr → Except String (List Arr)) (r : List (TVal κ) → Except String (List (TVal κ))) (ok : List Arr → Prop) :
    Prop :=
  ∀ ps : List (Pr κ), goodL ps → ok (baseL ps) → ∀ outs, r (valL ps) = .ok outs →
    ∃ qs, goodL qs ∧ valL qs = outs ∧ f (baseL ps) = .ok (baseL qs) ∧
      ∀ k, ∀ᶠ s in 𝓝 (0 : ℝ), f (curL k s ps) = .ok (curL k s qs)

theorem pairSound_of {f : List Arr → Except String (List Arr)} {r : List (TVal κ) → Except String (List (TVal κ))}
    {ok : List Arr → Prop} (h : SoundFor f r ok) : PairSound f r ok := by
  intro ps hg hok outs ho
  have hmm : (valL ps).map TVal.primal = baseL ps := by simp only [valL, List.map_map]; rfl
  obtain ⟨h1, δs, h2, h3⟩ := h _ _ (good_forall₂ hg) (by rw [hmm]; exact hok) outs ho
  obtain ⟨qs, hq1, hq2, hq3⟩ := forall₂_zip h2
  refine ⟨qs, hq3, hq2, ?_, fun k => ?_⟩
  · rw [hmm] at h1
    rw [h1, ← hq2, List.map_map]
    rfl
  · filter_upwards [h3 k] with s e
    rw [← hq1, List.map_map, List.map_map] at e
    exact e

theorem soundFor_of {f : List Arr → Except String (List Arr)} {r : List (TVal κ) → Except String (List (TVal κ))}
    {ok : List Arr → Prop} (h : PairSound f r ok) : SoundFor f r ok := by
  intro γs vs hd hok outs ho
  obtain ⟨ps, hp1, hp2, hp3⟩ := forall₂_zip hd
  subst hp1 hp2
  have hmm : (valL ps).map TVal.primal = baseL ps := by simp only [valL, List.map_map]; rfl
  obtain ⟨qs, h1, h2, h3, h4⟩ := h ps hp3 (by rw [← hmm]; exact hok) outs ho
  subst h2
  refine ⟨?_, qs.map Prod.fst, good_forall₂ h1, fun k => ?_⟩
  · rw [hmm, h3, List.map_map]
    rfl
  · filter_upwards [h4 k] with s e
    rw [List.map_map, List.map_map]
    exact e

/-! ### while -/

/-- A locally constant computation along curves. -/
theorem const_curve {f : List Arr → Except String (List Arr)} {ps : List (Pr κ)} (hg : goodL ps) (hc : ConstAt f (baseL ps)) :
    ∃ os, f (baseL ps) = .ok os ∧ ∀ k, ∀ᶠ s in 𝓝 (0 : ℝ), f (curL k s ps) = .ok os := by
  have hmm : (valL ps).map TVal.primal = baseL ps := by simp only [valL, List.map_map]; rfl
  obtain ⟨os, hos⟩ := hc
  rw [← hmm] at hos
  obtain ⟨g, h1, h2⟩ := curve_of (ps.map Prod.fst) (valL ps) (good_forall₂ hg)
  have he := eventually_merge (P := fun _ => True) hos
  simp only [put_emb] at he
  have h0 := he.self_of_nhds
  rw [merge_xs, hmm] at h0
  refine ⟨os, h0, fun k => ?_⟩
  filter_upwards [h1 k, (h2.tendsto k).eventually he] with s e1 e2
  rw [List.map_map] at e1
  exact (congrArg f e1).trans e2

theorem while_pair {cond body : List Arr → Except String (List Arr)} {condL bodyL : List (TVal κ) → Except String (List (TVal κ))}
    {okBody : List Arr → Prop} (hcond : ∀ as : List Arr, condL (as.map .plain) = (cond as).map (List.map .plain))
    (hbody : PairSound body bodyL okBody) (cc bc : List (Pr κ)) (hcc : goodL cc) (hbc : goodL bc) :
    ∀ (fuel : ℕ) (ps : List (Pr κ)), goodL ps →
      okWhile (ConstAt cond) cond body okBody (baseL cc) (baseL bc) fuel (baseL ps) →
      ∀ outs, whileLap condL bodyL (valL cc) (valL bc) fuel (valL ps) = .ok outs →
        ∃ qs, goodL qs ∧ valL qs = outs ∧ whilePlain cond body (baseL cc) (baseL bc) fuel (baseL ps) = .ok (baseL qs) ∧
          ∀ k, ∀ᶠ s in 𝓝 (0 : ℝ), whilePlain cond body (curL k s cc) (curL k s bc) fuel (curL k s ps) = .ok (curL k s qs)
  | 0, _, _, _, _, ho => by cases ho
  | fuel + 1, ps, hg, ⟨hc, hok⟩, outs, ho => by
    have happ : baseL cc ++ baseL ps = baseL (cc ++ ps) := List.map_append.symm
    rw [happ] at hc
    obtain ⟨os, ho1, ho2⟩ := const_curve (goodL_append hcc hg) hc
    have hstrip : ((valL cc ++ valL ps).map fun v => TVal.plain (κ := κ) v.primal) = (baseL (cc ++ ps)).map .plain := by
      simp only [valL, baseL, List.map_append, List.map_map]; rfl
    simp only [whileLap, hstrip, hcond, ho1, Bind.bind, Except.bind, Except.map] at ho
    have hos : (os.map (TVal.plain (κ := κ))).map TVal.primal = os := by
      rw [List.map_map]; exact List.map_id _
    simp only [hos] at ho
    cases hp : predOf (.ok os) with
    | error e => simp only [hp] at ho; cases ho
    | ok b =>
      simp only [hp] at ho
      cases b with
      | false =>
        simp only [Bool.false_eq_true, if_false, pure, Except.pure, Except.ok.injEq] at ho
        refine ⟨ps, hg, ho, ?_, fun k => ?_⟩
        · simp only [whilePlain, happ, ho1, hp, Bind.bind, Except.bind]
          rfl
        · filter_upwards [ho2 k] with s e
          have happ' : curL k s cc ++ curL k s ps = curL k s (cc ++ ps) := List.map_append.symm
          simp only [whilePlain, happ', e, hp, Bind.bind, Except.bind]
          rfl
      | true =>
        simp only [if_true] at ho
        have hpt : predOf (cond (baseL cc ++ baseL ps)) = .ok true := by rw [happ, ho1, hp]
        obtain ⟨hok1, hok2⟩ := hok hpt
        have hv : valL bc ++ valL ps = valL (bc ++ ps) := List.map_append.symm
        have hb : baseL bc ++ baseL ps = baseL (bc ++ ps) := List.map_append.symm
        rw [hv] at ho
        rw [hb] at hok1 hok2
        cases hn : bodyL (valL (bc ++ ps)) with
        | error e => simp only [hn] at ho; cases ho
        | ok new =>
          simp only [hn] at ho
          obtain ⟨qs, hq1, hq2, hq3, hq4⟩ := hbody _ (goodL_append hbc hg) hok1 _ hn
          cases hk : sameKinds (valL ps) new with
          | false => simp only [hk] at ho; cases ho
          | true =>
            simp only [hk, if_true] at ho
            rw [← hq2] at ho
            obtain ⟨rs, hr1, hr2, hr3, hr4⟩ := while_pair hcond hbody cc bc hcc hbc fuel qs hq1 (hok2 _ hq3) outs ho
            refine ⟨rs, hr1, hr2, ?_, fun k => ?_⟩
            · simp only [whilePlain, hpt, hb, hq3, Bind.bind, Except.bind, if_true]
              exact hr3
            · filter_upwards [ho2 k, hq4 k, hr4 k] with s e1 e2 e3
              have happ' : curL k s cc ++ curL k s ps = curL k s (cc ++ ps) := List.map_append.symm
              have hb' : curL k s bc ++ curL k s ps = curL k s (bc ++ ps) := List.map_append.symm
              simp only [whilePlain, happ', e1, hp, hb', e2, Bind.bind, Except.bind, if_true]
              exact e3

/-- A program evaluated on plain values. -/
theorem runLap_plain (p : Prog κ) (hlim : p.fewReads) (as : List Arr) :
    p.runLap (as.map .plain) = (p.runPlain as).map (List.map .plain) := by
  have hl : ∀ xs : List (Atom Arr), xs.map (liftA (κ := κ)) = xs.map (mapAtom .plain) := fun xs =>
    List.map_congr_left fun a _ => by cases a <;> rfl
  have hrun : ∀ (es : List (LEqn κ)) (m : ℕ → Option Arr),
      (Interp.Spec.run (fun x => (m x).map (TVal.plain (κ := κ))) (lapEqns es) : Except (Err String) _) =
        (Interp.Spec.run m (plainEqns es)).map fun m' x => (m' x).map TVal.plain := by
    intro es
    induction es with
    | nil => intro m; rfl
    | cons e es ih =>
      intro m
      simp only [lapEqns, plainEqns, List.map_cons, Interp.Spec.run, Bind.bind, Except.bind, hl,
        values_map (E := String) (TVal.plain (κ := κ)) m e.invars]
      cases hv : (Interp.Spec.values m e.invars : Except (Err String) _) with
      | error er => rfl
      | ok vals =>
        have ht : (vals.map (TVal.plain (κ := κ))).any TVal.isTracked = false := by
          simp [List.any_map, TVal.isTracked, Function.comp_def]
        have hp : (vals.map (TVal.plain (κ := κ))).map TVal.primal = vals := by rw [List.map_map]; exact List.map_id _
        have hev : e.prim.evalEqn (vals.map .plain) = (e.prim.bind vals).map (List.map .plain) := by
          unfold Prim.evalEqn
          rw [ht, hp]
          rfl
        simp only [Except.map, hev]
        cases hb : e.prim.bind vals with
        | error er => rfl
        | ok outs =>
          simp only [← bind_map (TVal.plain (κ := κ))]
          have := ih (Interp.Spec.bind m e.outvars outs)
          simp only [lapEqns, plainEqns, hl, Except.map] at this
          exact this
  unfold Prog.runLap Prog.runPlain
  rw [(Jaqmc.Interp.Props.c43_same p.lapJaxpr (p.consts.map .plain) (as.map .plain) hlim).1]
  unfold Interp.Spec.eval
  have hstore : Interp.Spec.bind (Interp.Spec.bind (fun _ => none) p.constvars (p.consts.map (TVal.plain (κ := κ)))) p.invars (as.map .plain) =
      fun x => ((Interp.Spec.bind (Interp.Spec.bind (fun _ => none) p.constvars p.consts) p.invars as) x).map .plain := by
    rw [bind_map, bind_map]
    rfl
  have h1 := hrun p.eqns (Interp.Spec.bind (Interp.Spec.bind (fun _ => none) p.constvars p.consts) p.invars as)
  rw [← hstore] at h1
  show flatten ((Interp.Spec.run (Interp.Spec.bind (Interp.Spec.bind (fun _ => none) p.constvars (p.consts.map (TVal.plain (κ := κ)))) p.invars (as.map .plain)) (lapEqns p.eqns) : Except (Err String) _) >>= fun m => Interp.Spec.values m (p.outvars.map liftA)) =
    (flatten ((Interp.Spec.run (Interp.Spec.bind (Interp.Spec.bind (fun _ => none) p.constvars p.consts) p.invars as) (plainEqns p.eqns) : Except (Err String) _) >>= fun m => Interp.Spec.values m p.outvars)).map _
  rw [h1]
  cases (Interp.Spec.run (Interp.Spec.bind (Interp.Spec.bind (fun _ => none) p.constvars p.consts) p.invars as) (plainEqns p.eqns) : Except (Err String) _) with
  | error er => cases er <;> rfl
  | ok m =>
    simp only [Except.map, Bind.bind, Except.bind, hl, values_map (E := String) (TVal.plain (κ := κ)) m p.outvars]
    cases (Interp.Spec.values m p.outvars : Except (Err String) _) with
    | error er => cases er <;> rfl
    | ok vs => rfl

theorem while_sound (cond body : Prog κ) (hlim : cond.fewReads)
    (hb : SoundFor body.runPlain body.runLap body.okRun) (ncc nbc fuel : ℕ) :
    SoundFor (whilePrim (ConstAt cond.runPlain) cond body ncc nbc fuel).bind
      (whilePrim (ConstAt cond.runPlain) cond body ncc nbc fuel).rule
      (whilePrim (ConstAt cond.runPlain) cond body ncc nbc fuel).ok := by
  refine soundFor_of fun ps hg hok outs ho => ?_
  have h := while_pair (cond := cond.runPlain) (runLap_plain cond hlim) (pairSound_of hb) (ps.take ncc) ((ps.drop ncc).take nbc)
    (goodL_take _ hg) (goodL_take _ (goodL_drop _ hg)) fuel (ps.drop (ncc + nbc)) (goodL_drop _ hg)
    (by simpa only [whilePrim, baseL, List.map_take, List.map_drop] using hok) outs
    (by simpa only [whilePrim, valL, List.map_take, List.map_drop] using ho)
  obtain ⟨qs, h1, h2, h3, h4⟩ := h
  refine ⟨qs, h1, h2, ?_, fun k => ?_⟩
  · simpa only [whilePrim, baseL, List.map_take, List.map_drop] using h3
  · filter_upwards [h4 k] with s e
    simpa only [whilePrim, curL, List.map_take, List.map_drop] using e

end Jaqmc.Laplacian
