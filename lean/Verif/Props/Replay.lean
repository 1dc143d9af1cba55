import Verif.Spec.Replay
import Verif.Props.Config
import Mathlib.Tactic.SplitIfs
import Mathlib.Tactic.ByContra
import Mathlib.Tactic.Tauto
/-!
C123: the recorded configuration reproduces the run.
-/
namespace Jaqmc.Replay.Props
open Jaqmc.Config Jaqmc.Config.Spec Jaqmc.Config.Props Jaqmc.Replay Jaqmc.Replay.Spec

variable {V : Type}

theorem see_leaf_nil (v : V) : Cfg.see (.leaf v) [] = some (some v) := by unfold Cfg.see; rfl
theorem see_dict_nil (e : Entries V) : Cfg.see (.dict e) [] = some none := by unfold Cfg.see; rfl
theorem see_leaf_cons (v : V) (k : Str) (p : List Str) : Cfg.see (.leaf v) (k :: p) = none := by unfold Cfg.see; rfl
theorem see_dict_cons (e : Entries V) (k : Str) (p : List Str) : Cfg.see (.dict e) (k :: p) = (e.lookup k).bind fun c => Cfg.see c p := by
  rw [Cfg.see]; cases e.lookup k <;> rfl
theorem at_nil (e : Entries V) : at_ e [] = some none := see_dict_nil e
theorem at_cons (e : Entries V) (k : Str) (p : List Str) : at_ e (k :: p) = (e.lookup k).bind fun c => Cfg.see c p := see_dict_cons e k p

theorem see_leaf_ne (v : V) {p : List Str} (hp : p ≠ []) : Cfg.see (.leaf v) p = none := by
  cases p with
  | nil => exact absurd rfl hp
  | cons k p => exact see_leaf_cons v k p

/-- Above anything there is a dictionary. -/
theorem see_above (c : Cfg V) : ∀ (q r : List Str), r ≠ [] → Cfg.see c (q ++ r) ≠ none → Cfg.see c q = some none := by
  intro q
  induction q generalizing c with
  | nil =>
    intro r hr h
    cases c with
    | leaf v => exact absurd (see_leaf_ne v hr) h
    | dict e => exact see_dict_nil e
  | cons k q ih =>
    intro r hr h
    cases c with
    | leaf v => exact absurd (see_leaf_cons v k _) h
    | dict e =>
      rw [List.cons_append, see_dict_cons] at h
      rw [see_dict_cons]
      cases hk : e.lookup k with
      | none => rw [hk] at h; exact absurd rfl h
      | some c => rw [hk] at h; exact ih c r hr h

theorem hidden_none {c : Cfg V} {p : List Str} (h : Hidden (Cfg.see c) p) : Cfg.see c p = none := by
  obtain ⟨q, r, v, rfl, hr, hq⟩ := h
  by_contra hc
  rw [see_above c q r hr hc] at hq
  cases hq

theorem not_hidden_nil {t : List Str → Option (Option V)} : ¬ Hidden t [] := by
  rintro ⟨q, r, v, h, hr, _⟩
  exact hr (List.append_eq_nil_iff.mp h.symm).2

theorem hidden_cons (e e' : Entries V) (k : Str) (p : List Str) (he : e.lookup k = some (.dict e')) : Hidden (at_ e) (k :: p) ↔ Hidden (at_ e') p := by
  constructor
  · rintro ⟨q, r, v, h, hr, hq⟩
    cases q with
    | nil => rw [at_nil] at hq; cases hq
    | cons k' q =>
      simp only [List.cons_append, List.cons.injEq] at h
      obtain ⟨rfl, rfl⟩ := h
      rw [at_cons, he] at hq
      exact ⟨q, r, v, rfl, hr, hq⟩
  · rintro ⟨q, r, v, rfl, hr, hq⟩
    exact ⟨k :: q, r, v, rfl, hr, by rw [at_cons, he]; exact hq⟩

/-- Merging, seen at a path. -/
theorem at_merge (p : List Str) : ∀ (b o : Entries V), WF o →
    (∀ x, at_ o p = some x → at_ (deepMerge b o) p = some x) ∧ (Hidden (at_ o) p → at_ (deepMerge b o) p = none) ∧
    (at_ o p = none → ¬ Hidden (at_ o) p → at_ (deepMerge b o) p = at_ b p) := by
  induction p with
  | nil =>
    intro b o _
    refine ⟨fun x h => by rw [at_nil] at h ⊢; exact h, fun h => absurd h not_hidden_nil, fun h => by rw [at_nil] at h; cases h⟩
  | cons k p ih =>
    intro b o ho
    have hl : (deepMerge b o).lookup k = _ := lookup_merge k o b ho
    cases hk : o.lookup k with
    | none =>
      rw [hk] at hl
      have h0 : at_ o (k :: p) = none := by rw [at_cons, hk]; rfl
      have e : at_ (deepMerge b o) (k :: p) = at_ b (k :: p) := by rw [at_cons, hl, at_cons]
      refine ⟨fun x h => (by rw [h0] at h; cases h), fun ⟨q, r, v, h, hr, hq⟩ => ?_, fun _ _ => e⟩
      cases q with
      | nil => rw [at_nil] at hq; cases hq
      | cons k' q =>
        simp only [List.cons_append, List.cons.injEq] at h
        obtain ⟨rfl, rfl⟩ := h
        rw [at_cons, hk] at hq
        cases hq
    | some c =>
      rw [hk] at hl
      cases c with
      | leaf v =>
        have e : at_ (deepMerge b o) (k :: p) = at_ o (k :: p) := by rw [at_cons, hl, at_cons, hk]; simp [mergeValue]
        refine ⟨fun x h => by rw [e]; exact h, fun h => by rw [e]; exact hidden_none h, fun h hh => absurd ?_ hh⟩
        have hp : p ≠ [] := by
          rintro rfl
          rw [at_cons, hk] at h
          simp [see_leaf_nil] at h
        exact ⟨[k], p, v, rfl, hp, by rw [at_cons, hk]; exact see_leaf_nil v⟩
      | dict o' =>
        have ho' : WF o' := wf_lookup k _ o ho hk
        rw [hidden_cons o o' k p hk]
        have h0 : at_ o (k :: p) = at_ o' p := by rw [at_cons, hk]; rfl
        rw [h0]
        have hm : ∀ b', b.lookup k = some (.dict b') → at_ (deepMerge b o) (k :: p) = at_ (deepMerge b' o') p := by
          intro b' hb
          rw [at_cons, hl, hb]
          simp only [mergeValue, Option.bind_some]
          rfl
        have hn : (∀ b', b.lookup k ≠ some (.dict b')) → at_ (deepMerge b o) (k :: p) = at_ o' p := by
          intro hb
          rw [at_cons, hl]
          cases hb' : b.lookup k with
          | none => simp only [mergeValue, Option.bind_some]; rfl
          | some x =>
            cases x with
            | leaf v => simp only [mergeValue, Option.bind_some]; rfl
            | dict b' => exact absurd hb' (hb b')
        by_cases hb : ∃ b', b.lookup k = some (.dict b')
        · obtain ⟨b', hb'⟩ := hb
          rw [hm b' hb']
          obtain ⟨h1, h2, h3⟩ := ih b' o' ho'
          refine ⟨h1, h2, fun a c => ?_⟩
          rw [h3 a c, at_cons, hb']; rfl
        · have hb' : ∀ b', b.lookup k ≠ some (.dict b') := fun b' h => hb ⟨b', h⟩
          rw [hn hb']
          refine ⟨fun x h => h, fun h => hidden_none h, fun h _ => ?_⟩
          rw [h, at_cons]
          cases hbk : b.lookup k with
          | none => rfl
          | some x =>
            cases x with
            | dict b' => exact absurd hbk (hb' b')
            | leaf v =>
              have hp : p ≠ [] := by rintro rfl; rw [at_nil] at h; cases h
              simp [see_leaf_ne v hp]

/-- What the layer below says is all in the result already. -/
def Absorbed (t t' : List Str → Option (Option V)) : Prop := ∀ p, t p ≠ none → t' p ≠ none ∨ Hidden t' p

theorem merge_absorbed {d u : Entries V} {t : List Str → Option (Option V)} (hu : WF u) (ht : at_ u = t) (h : Absorbed (at_ d) t) : at_ (deepMerge d u) = t := by
  subst ht
  funext p
  obtain ⟨h1, h2, h3⟩ := at_merge p d u hu
  cases hp : at_ u p with
  | some x => exact h1 x hp
  | none =>
    by_cases hh : Hidden (at_ u) p
    · exact h2 hh
    · rw [h3 hp hh]
      by_contra hc
      rcases h p hc with h | h
      · exact h hp
      · exact hh h

theorem absorbed_left (d s : Entries V) (hs : WF s) : Absorbed (at_ d) (at_ (deepMerge d s)) := by
  intro p hp
  obtain ⟨h1, h2, h3⟩ := at_merge p d s hs
  cases hq : at_ s p with
  | some x => left; rw [h1 x hq]; simp
  | none =>
    by_cases hh : Hidden (at_ s) p
    · right
      obtain ⟨q, r, v, e, hr, hv⟩ := hh
      exact ⟨q, r, v, e, hr, (at_merge q d s hs).1 _ hv⟩
    · left; rw [h3 hq hh]; exact hp

theorem keeps_right (d s : Entries V) (hs : WF s) : Keeps (at_ s) (at_ (deepMerge d s)) := by
  intro p
  refine ⟨fun h => Or.inl (by rw [(at_merge p d s hs).1 _ h]; simp), fun v h => Or.inl ⟨v, (at_merge p d s hs).1 _ h⟩⟩

theorem hidden_keeps {t t' : List Str → Option (Option V)} (h : Keeps t t') {p : List Str} (hp : Hidden t p) : Hidden t' p := by
  obtain ⟨q, r, v, rfl, hr, hq⟩ := hp
  rcases (h q).2 v hq with ⟨w, hw⟩ | ⟨q1, r1, w, rfl, hr1, hw⟩
  · exact ⟨q, r, w, rfl, hr, hw⟩
  · exact ⟨q1, r1 ++ r, w, by simp, by simp [hr], hw⟩

theorem keeps_absorbed {t t' : List Str → Option (Option V)} (h : Keeps t t') : Absorbed t t' := by
  intro p hp
  cases hx : t p with
  | none => exact absurd hx hp
  | some x =>
    cases x with
    | none => exact (h p).1 hx
    | some v =>
      rcases (h p).2 v hx with ⟨w, hw⟩ | hh
      · left; rw [hw]; simp
      · exact Or.inr hh

theorem absorbed_trans {t t' t'' : List Str → Option (Option V)} (h : Absorbed t t') (h' : Keeps t' t'') : Absorbed t t'' := by
  intro p hp
  rcases h p hp with h1 | h1
  · exact keeps_absorbed h' p h1
  · exact Or.inr (hidden_keeps h' h1)

theorem absorbed_refl (t : List Str → Option (Option V)) : Absorbed t t := fun _ h => Or.inl h

/-! ### Proper dictionaries -/

theorem keys_set_sub (k j : Str) (v : Cfg V) (d : Entries V) (h : j ∉ d.keys) (hj : j ≠ k) : j ∉ (d.set k v).keys := by
  rw [mem_keys_set]; tauto

theorem wf_set (k : Str) (v : Cfg V) (hv : WFValue v) : (d : Entries V) → WF d → WF (d.set k v)
  | .nil, _ => by simp [Entries.set, WF, Entries.keys, hv]
  | .cons k' v' r, h => by
    simp only [WF] at h
    simp only [Entries.set]
    split_ifs with hk
    · subst hk; exact ⟨h.1, hv, h.2.2⟩
    · exact ⟨keys_set_sub k k' v r h.1 hk, h.2.1, wf_set k v hv r h.2.2⟩

mutual
theorem wf_mergeInto : (o b : Entries V) → WF o → WF b → WF (mergeInto b o)
  | .nil, b, _, hb => by simpa [mergeInto] using hb
  | .cons k v o, b, ho, hb => by
    simp only [WF] at ho
    simp only [mergeInto]
    exact wf_mergeInto o _ ho.2.2 (wf_set _ _ (wf_mergeValue v _ ho.2.1 fun c hc => wf_lookup k c b hb hc) b hb)
theorem wf_mergeValue : (v : Cfg V) → (old : Option (Cfg V)) → WFValue v → (∀ c, old = some c → WFValue c) → WFValue (mergeValue old v)
  | .leaf v, _, _, _ => by simp [mergeValue, WFValue]
  | .dict o, old, hv, hold => by
    have ho : WF o := hv
    cases old with
    | none => simpa [mergeValue] using hv
    | some c =>
      cases c with
      | leaf w => simpa [mergeValue] using hv
      | dict b =>
        have hb : WF b := hold _ rfl
        simpa [mergeValue, WFValue] using wf_mergeInto o b ho hb
end

theorem wf_merge (b o : Entries V) (ho : WF o) (hb : WF b) : WF (deepMerge b o) := wf_mergeInto o b ho hb

theorem wf_getPath (p : List Str) : ∀ (d : Entries V) (c : Cfg V), WF d → getPath p d = some c → WFValue c := by
  induction p with
  | nil => intro d c _ h; simp [getPath] at h
  | cons k p ih =>
    intro d c hd h
    cases p with
    | nil => exact wf_lookup k c d hd (by simpa [getPath] using h)
    | cons k' p =>
      simp only [getPath] at h
      cases hk : d.lookup k with
      | none => rw [hk] at h; cases h
      | some x =>
        rw [hk] at h
        cases x with
        | leaf v => cases h
        | dict sub => exact ih sub c (wf_lookup k _ d hd hk) h

theorem wf_setPath (v : Cfg V) (hv : WFValue v) (p : List Str) : ∀ (d d' : Entries V), WF d → setPath v p d = .ok d' → WF d' := by
  induction p with
  | nil => intro d d' hd h; simp [setPath] at h; exact h ▸ hd
  | cons k p ih =>
    intro d d' hd h
    cases p with
    | nil => simp [setPath] at h; exact h ▸ wf_set k v hv d hd
    | cons k' p =>
      simp only [setPath] at h
      cases hk : d.lookup k with
      | none =>
        rw [hk] at h
        cases hs : setPath v (k' :: p) .nil with
        | error e => rw [hs] at h; cases h
        | ok sub =>
          rw [hs] at h
          cases h
          exact wf_set k _ (show WFValue (.dict sub) from ih .nil sub (by simp [WF]) hs) d hd
      | some x =>
        rw [hk] at h
        cases x with
        | leaf w => cases h
        | dict sub =>
          cases hs : setPath v (k' :: p) sub with
          | error e => simp only [hs] at h; cases h
          | ok sub' =>
            simp only [hs] at h
            cases h
            exact wf_set k _ (show WFValue (.dict sub') from ih sub sub' (wf_lookup k _ d hd hk) hs) d hd

/-! ### Paths -/

theorem at_getPath (p : List Str) (hp : p ≠ []) : ∀ (d : Entries V) (q : List Str), at_ d (p ++ q) = (getPath p d).bind fun c => Cfg.see c q := by
  induction p with
  | nil => exact absurd rfl hp
  | cons k p ih =>
    intro d q
    cases p with
    | nil => rw [List.singleton_append, at_cons]; rfl
    | cons k' p =>
      rw [List.cons_append, at_cons]
      simp only [getPath]
      cases hk : d.lookup k with
      | none => rfl
      | some x =>
        cases x with
        | leaf v => simp [see_leaf_cons]
        | dict sub => exact ih (by simp) sub q

theorem blocked_hidden (p : List Str) : ∀ d : Entries V, says p d = .blocked ↔ Hidden (at_ d) p := by
  induction p with
  | nil => intro d; simp [says, not_hidden_nil]
  | cons k p ih =>
    intro d
    simp only [says]
    cases hk : d.lookup k with
    | none =>
      simp only [reduceCtorEq, false_iff]
      rintro ⟨q, r, v, h, hr, hq⟩
      cases q with
      | nil => rw [at_nil] at hq; cases hq
      | cons k' q =>
        simp only [List.cons_append, List.cons.injEq] at h
        obtain ⟨rfl, rfl⟩ := h
        rw [at_cons, hk] at hq
        cases hq
    | some x =>
      cases x with
      | leaf v =>
        by_cases hp : p = []
        · subst hp
          simp only [if_true, reduceCtorEq, false_iff]
          rintro ⟨q, r, w, h, hr, hq⟩
          cases q with
          | nil => rw [at_nil] at hq; cases hq
          | cons k' q =>
            simp only [List.cons_append, List.cons.injEq] at h
            exact hr (List.append_eq_nil_iff.mp h.2.symm).2
        · simp only [if_neg hp, true_iff]
          exact ⟨[k], p, v, rfl, hp, by rw [at_cons, hk]; exact see_leaf_nil v⟩
      | dict sub =>
        rw [hidden_cons d sub k p hk]
        exact ih sub

theorem at_setPath (v : Cfg V) (n : List Str) (hn : n ≠ []) (d d' : Entries V) (h : setPath v n d = .ok d') :
    (∀ q, at_ d' (n ++ q) = Cfg.see v q) ∧ (∀ p, ¬ n <+: p → at_ d' p = if p <+: n then some none else at_ d p) := by
  have hg := setPath_get v n d d' hn h
  have h1 : ∀ q, at_ d' (n ++ q) = Cfg.see v q := fun q => by rw [at_getPath n hn, hg]; rfl
  refine ⟨h1, fun p hp => ?_⟩
  split_ifs with hq
  · obtain ⟨r, rfl⟩ := hq
    have hr : r ≠ [] := by rintro rfl; simp at hp
    refine see_above (.dict d') p r hr ?_
    have := h1 []
    rw [List.append_nil] at this
    show at_ d' (p ++ r) ≠ none
    rw [this]
    cases v with
    | leaf w => rw [see_leaf_nil]; simp
    | dict e => rw [see_dict_nil]; simp
  · have hp0 : p ≠ [] := by rintro rfl; exact hq List.nil_prefix
    have := setPath_frame v n p d d' h hp hq
    have e1 := at_getPath p hp0 d' []
    have e2 := at_getPath p hp0 d []
    rw [List.append_nil] at e1 e2
    rw [e1, e2, this]

/-- What is recorded depends on what could be seen before only. -/
theorem setPath_same (v v' : Cfg V) (n : List Str) (hn : n ≠ []) (hv : Cfg.see v' = Cfg.see v) (d d' e : Entries V) (hd : at_ d' = at_ d) (h : setPath v n d = .ok e) :
    ∃ e', setPath v' n d' = .ok e' ∧ at_ e' = at_ e := by
  have hb : ¬ ∃ x, setPath v n d = .error x := by rw [h]; rintro ⟨x, hx⟩; cases hx
  rw [setPath_error, blocked_hidden, ← hd, ← blocked_hidden, ← setPath_error v'] at hb
  cases he : setPath v' n d' with
  | error x => exact absurd ⟨x, he⟩ hb
  | ok e' =>
    refine ⟨e', rfl, ?_⟩
    obtain ⟨a1, a2⟩ := at_setPath v n hn d e h
    obtain ⟨b1, b2⟩ := at_setPath v' n hn d' e' he
    funext p
    by_cases hp : n <+: p
    · obtain ⟨q, rfl⟩ := hp
      rw [a1, b1, hv]
    · rw [a2 p hp, b2 p hp, hd]

/-! ### Reading an option -/

theorem merge_nil (d : Entries V) : deepMerge d .nil = d := by simp [deepMerge, mergeInto]

theorem at_erase (k k' : Str) (p : List Str) (d : Entries V) : at_ (d.erase k) (k' :: p) = if k = k' then none else at_ d (k' :: p) := by
  rw [at_cons, lookup_erase]
  split_ifs
  · rfl
  · rw [at_cons]

theorem dict_of_see {c : Cfg V} (h : Cfg.see c [] = some none) : ∃ e, c = .dict e := by
  cases c with
  | leaf v => rw [see_leaf_nil] at h; cases h
  | dict e => exact ⟨e, rfl⟩

theorem leaf_of_see {c : Cfg V} {v : V} (h : Cfg.see c [] = some (some v)) : c = .leaf v := by
  cases c with
  | leaf w => rw [see_leaf_nil] at h; cases h; rfl
  | dict e => rw [see_dict_nil] at h; cases h

theorem wf_section (x : Option (Cfg V)) (h : ∀ c, x = some c → WFValue c) : WF (sectionData x) := by
  match x, h with
  | none, _ => simp [sectionData, WF]
  | some (.leaf v), _ => simp [sectionData, WF]
  | some (.dict u), h => exact wf_erase _ u (h _ rfl)

theorem wf_callable (sig : Entries V) (hs : WF sig) (x : Option (Cfg V)) (h : ∀ c, x = some c → WFValue c) (r : Entries V) (hr : callableData sig x = .ok r) : WF r := by
  match x, h, hr with
  | none, _, hr => simp [callableData] at hr; subst hr; exact wf_merge _ _ (by simp [WF]) hs
  | some (.dict u), h, hr => simp [callableData] at hr; subst hr; exact wf_merge _ _ (h _ rfl) hs
  | some (.leaf v), _, hr => simp [callableData] at hr

/-- The paths below the name that the reader takes from the configuration. -/
def Taken : Read V → List Str → Prop
  | .dataclass _ _ _, q => q.head? ≠ some moduleKey
  | _, _ => True

theorem section_keeps (x : Option (Cfg V)) (q : List Str) (hq : q.head? ≠ some moduleKey) (hq0 : q ≠ []) : (x.bind fun c => Cfg.see c q) = at_ (sectionData x) q := by
  cases q with
  | nil => exact absurd rfl hq0
  | cons k q =>
    match x with
    | none => simp [sectionData, at_cons, Entries.lookup]
    | some (.leaf v) => simp [sectionData, at_cons, Entries.lookup, see_leaf_cons]
    | some (.dict u) =>
      simp only [sectionData, Option.bind_some]
      rw [at_erase, if_neg]
      · rfl
      · intro h
        apply hq
        simp [moduleKey, ← h]

theorem callable_keeps (sig : Entries V) (x : Option (Cfg V)) (h : ∀ c, x = some c → WFValue c) (r : Entries V) (hr : callableData sig x = .ok r) (q : List Str)
    (hq : (x.bind fun c => Cfg.see c q) ≠ none) : at_ r q ≠ none ∨ Hidden (at_ r) q := by
  match x, h, hr, hq with
  | none, _, hr, hq => exact absurd rfl hq
  | some (.dict u), h, hr, hq =>
    simp [callableData] at hr; subst hr
    exact keeps_absorbed (keeps_right sig u (h _ rfl)) q hq
  | some (.leaf v), _, hr, _ => simp [callableData] at hr

/-- What is recorded is proper. -/
theorem act_wf (r : Read V) (hr : LawfulRead r) (M : Entries V) (hM : WF M) (c : Cfg V) (h : r.act M = .ok c) : WFValue c := by
  have hg : ∀ p c, getPath p M = some c → WFValue c := fun p c => wf_getPath p M c hM
  cases r with
  | primitive n conv =>
    simp only [Read.act] at h
    split at h <;> cases h
    simp [WFValue]
  | container n d =>
    simp only [Read.act] at h
    cases h
    cases hx : getPath n M with
    | none => exact hr.2
    | some x =>
      cases x with
      | leaf v => simp [WFValue]
      | dict u =>
        have hu : WF u := hg n _ hx
        cases d with
        | leaf v => exact hu
        | dict d => exact wf_merge d u hu hr.2
  | dataclass n base norm =>
    simp only [Read.act] at h
    split at h <;> cases h
    rename_i r' hr'
    exact (hr.2.2.2.proper _ _ (wf_merge base _ (wf_section _ (hg n)) hr.2.1) hr').1
  | callable n sig =>
    simp only [Read.act] at h
    split at h <;> cases h
    rename_i r' hr'
    exact wf_callable sig hr.2 _ (hg n) _ hr'
  | module n choose resolve =>
    simp only [Read.act] at h
    split at h
    · cases h
    · split at h
      · cases h
      · rename_i norm hi
        have hl : LawfulClass norm := hr.2.2 _ _ hi
        split at h <;> cases h
        rename_i r' hr'
        obtain ⟨h1, h2⟩ := hl.proper _ _ (wf_section _ (hg n)) hr'
        exact ⟨(lookup_none _ _).mp h2, by simp [WFValue], h1⟩
      · rename_i sig hi
        have hl : WF sig ∧ _ := hr.2.2 _ _ hi
        split at h <;> cases h
        rename_i r' hr'
        refine wf_callable _ ?_ _ (hg n) _ hr'
        exact ⟨(lookup_none _ _).mp hl.2, by simp [WFValue], hl.1⟩

/-- The chosen module, from what is at its name. -/
def pick (choose : Option V → Except Err V) : Option (Cfg V) → Except Err V
  | none => choose none
  | some (.leaf v) => choose (some v)
  | some (.dict _) => .error .notADict

/-- What loading the chosen implementation records. -/
def Loads (m : V) (x : Option (Cfg V)) (c : Cfg V) : Impl V → Prop
  | .dataclass norm => ∃ r, norm (sectionData x) = .ok r ∧ c = .dict (.cons moduleKey (.leaf m) r)
  | .callable sig => ∃ r, callableData (.cons moduleKey (.leaf m) sig) x = .ok r ∧ c = .dict r

theorem act_module (n : List Str) (choose : Option V → Except Err V) (resolve : V → Except Err (Impl V)) (M : Entries V) (c : Cfg V) :
    (Read.module n choose resolve).act M = .ok c ↔ ∃ m i, pick choose (getPath (n ++ [moduleKey]) M) = .ok m ∧ resolve m = .ok i ∧ Loads m (getPath n M) c i := by
  have e : (Read.module n choose resolve).act M = match pick choose (getPath (n ++ [moduleKey]) M) with
    | .error e => .error e
    | .ok m => match resolve m with
      | .error e => .error e
      | .ok (.dataclass norm) => match norm (sectionData (getPath n M)) with
        | .ok r => .ok (.dict (.cons moduleKey (.leaf m) r))
        | .error e => .error e
      | .ok (.callable sig) => match callableData (.cons moduleKey (.leaf m) sig) (getPath n M) with
        | .ok r => .ok (.dict r)
        | .error e => .error e := rfl
  rw [e]
  cases hp : pick choose (getPath (n ++ [moduleKey]) M) with
  | error e => simp
  | ok m =>
    cases hi : resolve m with
    | error e => simp [hi]
    | ok i =>
      cases i with
      | dataclass norm =>
        cases hn : norm (sectionData (getPath n M)) with
        | error e => simp [hi, Loads, hn]
        | ok r => simp [hi, Loads, hn, eq_comm]
      | callable sig =>
        cases hn : callableData (.cons moduleKey (.leaf m) sig) (getPath n M) with
        | error e => simp [hi, Loads, hn]
        | ok r => simp [hi, Loads, hn, eq_comm]

theorem getPath_section (n : List Str) (hn : n ≠ []) (k : Str) (M : Entries V) : getPath (n ++ [k]) M = match getPath n M with
    | some (.dict u) => u.lookup k
    | _ => none := by
  induction n generalizing M with
  | nil => exact absurd rfl hn
  | cons j n ih =>
    cases n with
    | nil =>
      simp only [List.singleton_append, getPath]
      rcases M.lookup j with _ | _ | _ <;> rfl
    | cons j' n =>
      have := ih (by simp)
      simp only [List.cons_append, getPath] at this ⊢
      cases hj : M.lookup j with
      | none => rfl
      | some x =>
        cases x with
        | leaf v => rfl
        | dict sub => exact this sub

theorem at_cons_same (m : V) (r : Entries V) (q : List Str) : at_ (.cons moduleKey (.leaf m) r) (moduleKey :: q) = Cfg.see (.leaf m) q := by
  rw [at_cons]; simp [Entries.lookup]

theorem at_cons_other (m : V) (r : Entries V) (k : Str) (hk : k ≠ moduleKey) (q : List Str) : at_ (.cons moduleKey (.leaf m) r) (k :: q) = at_ r (k :: q) := by
  rw [at_cons, at_cons, Entries.lookup, if_neg (Ne.symm hk)]

/-- Everything the configuration says below the name is in what is recorded. -/
theorem act_keeps (r : Read V) (hr : LawfulRead r) (M : Entries V) (hM : WF M) (c : Cfg V) (h : r.act M = .ok c) (q : List Str) (hq : Taken r q)
    (hm : at_ M (r.name ++ q) ≠ none) : Cfg.see c q ≠ none ∨ Hidden (Cfg.see c) q := by
  have hg : ∀ p c, getPath p M = some c → WFValue c := fun p c => wf_getPath p M c hM
  by_cases hq0 : q = []
  · left
    subst hq0
    cases c with
    | leaf v => rw [see_leaf_nil]; simp
    | dict e => rw [see_dict_nil]; simp
  cases r with
  | primitive n conv =>
    simp only [Read.act] at h
    split at h <;> cases h
    right
    rename_i v _
    exact ⟨[], q, v, rfl, hq0, see_leaf_nil v⟩
  | container n d =>
    simp only [Read.name] at hm
    rw [at_getPath n hr.1] at hm
    simp only [Read.act] at h
    cases h
    cases hx : getPath n M with
    | none => rw [hx] at hm; exact absurd rfl hm
    | some x =>
      rw [hx] at hm
      cases x with
      | leaf v => exact Or.inl hm
      | dict u =>
        have hu : WF u := hg n _ hx
        cases d with
        | leaf v => exact Or.inl hm
        | dict d => exact keeps_absorbed (keeps_right d u hu) q hm
  | dataclass n base norm =>
    simp only [Read.name] at hm
    rw [at_getPath n hr.1, section_keeps _ q hq hq0] at hm
    simp only [Read.act] at h
    split at h <;> cases h
    rename_i r' hr'
    have hs := wf_section _ (hg n)
    exact absorbed_trans (keeps_absorbed (keeps_right base _ hs)) (hr.2.2.2.keeps _ _ (wf_merge base _ hs hr.2.1) hr') q hm
  | callable n sig =>
    simp only [Read.name] at hm
    rw [at_getPath n hr.1] at hm
    simp only [Read.act] at h
    split at h <;> cases h
    rename_i r' hr'
    exact callable_keeps sig _ (hg n) r' hr' q hm
  | module n choose resolve =>
    simp only [Read.name] at hm
    rw [act_module] at h
    obtain ⟨m, i, h1, h2, h3⟩ := h
    have hl := hr.2.2 _ _ h2
    cases i with
    | callable sig =>
      obtain ⟨r', hr', rfl⟩ := h3
      rw [at_getPath n hr.1] at hm
      exact callable_keeps _ _ (hg n) r' hr' q hm
    | dataclass norm =>
      obtain ⟨r', hr', rfl⟩ := h3
      cases q with
      | nil => exact absurd rfl hq0
      | cons k q =>
        by_cases hk : k = moduleKey
        · subst hk
          by_cases hq1 : q = []
          · subst hq1
            left
            show at_ _ _ ≠ none
            rw [at_cons_same, see_leaf_nil]; simp
          · right
            exact ⟨[moduleKey], q, m, rfl, hq1, (at_cons_same m r' []).trans (see_leaf_nil m)⟩
        · rw [at_getPath n hr.1, section_keeps _ (k :: q) (by simpa using hk) hq0] at hm
          rcases keeps_absorbed (hl.keeps _ _ (wf_section _ (hg n)) hr') (k :: q) hm with h | ⟨p, p', w, hp, hp', hw⟩
          · left
            show at_ _ _ ≠ none
            rw [at_cons_other m r' k hk]
            exact h
          · right
            cases p with
            | nil => rw [at_nil] at hw; cases hw
            | cons k' p =>
              have : k = k' := by simpa using (List.cons.inj hp).1
              subst this
              exact ⟨k :: p, p', w, hp, hp', (at_cons_other m r' k hk p).trans hw⟩

/-- Loading again what was loaded. -/
theorem load_again {norm : Entries V → Except Err (Entries V)} (hl : LawfulClass norm) (d r d' : Entries V) (hd : WF d) (h : norm d = .ok r) (hd' : WF d') (he : at_ d' = at_ r) :
    ∃ r', norm d' = .ok r' ∧ at_ r' = at_ r := by
  obtain ⟨r1, h1, h2⟩ := hl.again d r hd h
  obtain ⟨r2, h3, h4⟩ := hl.order r d' r1 (hl.proper d r hd h).1 hd' he.symm h1
  exact ⟨r2, h3, h4.trans h2⟩

theorem callable_again (sig : Entries V) (x : Option (Cfg V)) (hx : ∀ c, x = some c → WFValue c) (r e : Entries V) (h : callableData sig x = .ok r) (he : WF e) (hs : at_ e = at_ r) :
    ∃ r', callableData sig (some (.dict e)) = .ok r' ∧ at_ r' = at_ r := by
  refine ⟨_, rfl, merge_absorbed he hs ?_⟩
  match x, hx, h with
  | none, _, h => simp [callableData] at h; subst h; exact absorbed_left sig .nil (by simp [WF])
  | some (.dict u), hx, h => simp [callableData] at h; subst h; exact absorbed_left sig u (hx _ rfl)
  | some (.leaf v), _, h => simp [callableData] at h

theorem section_same (e r : Entries V) (hr : r.lookup moduleKey = none) (h : ∀ q, q.head? ≠ some moduleKey → at_ e q = at_ r q) : at_ (sectionData (some (.dict e))) = at_ r := by
  funext q
  cases q with
  | nil => rw [at_nil, at_nil]
  | cons k q =>
    show at_ (e.erase moduleKey) _ = _
    rw [at_erase]
    split_ifs with hk
    · subst hk; rw [at_cons, hr]; rfl
    · exact h _ (by simpa using Ne.symm hk)

/-- Reading from what was recorded gives what was read. -/
theorem act_replay (r : Read V) (hr : LawfulRead r) (M M' : Entries V) (hM : WF M) (hM' : WF M') (c c' : Cfg V) (h : r.act M = .ok c) (hc : getPath r.name M' = some c')
    (hs : ∀ q, Taken r q → Cfg.see c' q = Cfg.see c q) : ∃ c2, r.act M' = .ok c2 ∧ Cfg.see c2 = Cfg.see c := by
  have hg : ∀ p c, getPath p M = some c → WFValue c := fun p c => wf_getPath p M c hM
  have hwc : WFValue c' := wf_getPath _ M' c' hM' hc
  cases r with
  | primitive n conv =>
    simp only [Read.act] at h
    split at h <;> cases h
    rename_i v hv
    have : c' = .leaf v := leaf_of_see ((hs [] trivial).trans (see_leaf_nil v))
    subst this
    simp only [Read.name] at hc
    refine ⟨.leaf v, ?_, rfl⟩
    simp only [Read.act, hc, hr.2 _ _ hv]
  | container n d =>
    simp only [Read.name] at hc
    have hs' : Cfg.see c' = Cfg.see c := funext fun q => hs q trivial
    refine ⟨_, rfl, ?_⟩
    rw [hc]
    cases c' with
    | leaf v => exact hs'
    | dict u =>
      cases d with
      | leaf v => exact hs'
      | dict d =>
        have hd : Absorbed (at_ d) (Cfg.see c) := by
          simp only [Read.act] at h
          cases h
          cases hx : getPath n M with
          | none => exact absorbed_refl _
          | some x =>
            cases x with
            | leaf w =>
              exfalso
              have := congrFun hs' []
              rw [hx, see_dict_nil, see_leaf_nil] at this
              cases this
            | dict e => exact absorbed_left d e (hg n _ hx)
        exact merge_absorbed hwc hs' hd
  | dataclass n base norm =>
    simp only [Read.name] at hc
    simp only [Read.act] at h
    split at h <;> cases h
    rename_i r' hr'
    obtain ⟨e, rfl⟩ := dict_of_see ((hs [] (by simp [Taken])).trans (see_dict_nil r'))
    have hw := wf_section _ (hg n)
    have hw' := wf_merge base _ hw hr.2.1
    have hl := hr.2.2.2
    have h1 := section_same e r' (hl.proper _ _ hw' hr').2 fun q hq => hs q hq
    have hwe : WF (sectionData (some (.dict e))) := wf_section _ fun c hc => by cases hc; exact hwc
    have h2 : at_ (deepMerge base (sectionData (some (.dict e)))) = at_ r' := merge_absorbed hwe h1 (absorbed_trans (absorbed_left base _ hw) (hl.keeps _ _ hw' hr'))
    obtain ⟨r2, h3, h4⟩ := load_again hl _ r' _ hw' hr' (wf_merge base _ hwe hr.2.1) h2
    refine ⟨.dict r2, ?_, h4⟩
    simp only [Read.act, hc, h3]
  | callable n sig =>
    simp only [Read.name] at hc
    simp only [Read.act] at h
    split at h <;> cases h
    rename_i r' hr'
    obtain ⟨e, rfl⟩ := dict_of_see ((hs [] trivial).trans (see_dict_nil r'))
    obtain ⟨r2, h3, h4⟩ := callable_again sig _ (hg n) r' e hr' hwc (funext fun q => hs q trivial)
    refine ⟨.dict r2, ?_, h4⟩
    simp only [Read.act, hc, h3]
  | module n choose resolve =>
    simp only [Read.name] at hc
    rw [act_module] at h
    obtain ⟨m, i, h1, h2, h3⟩ := h
    have hl := hr.2.2 _ _ h2
    have hs' : Cfg.see c' = Cfg.see c := funext fun q => hs q trivial
    have hpick : ∀ e : Entries V, c' = .dict e → (∀ v, at_ e [moduleKey] = some (some v) → choose (some v) = .ok m → pick choose (getPath (n ++ [moduleKey]) M') = .ok m) := by
      rintro e rfl v hv hv'
      rw [getPath_section n hr.1, hc]
      have : e.lookup moduleKey = some (.leaf v) := by
        rw [at_cons] at hv
        cases hx : e.lookup moduleKey with
        | none => rw [hx] at hv; cases hv
        | some x => rw [hx] at hv; rw [leaf_of_see hv]
      simp only [this, pick, hv']
    have hm : choose (some m) = .ok m := by
      match hx : getPath (n ++ [moduleKey]) M, h1 with
      | none, h1 => exact hr.2.1 _ _ h1
      | some (.leaf v), h1 => exact hr.2.1 _ _ h1
      | some (.dict e), h1 => cases h1
    cases i with
    | dataclass norm =>
      obtain ⟨r', hr', rfl⟩ := h3
      obtain ⟨e, rfl⟩ := dict_of_see ((hs [] trivial).trans (see_dict_nil _))
      have hw := wf_section _ (hg n)
      have hp := (hl.proper _ _ hw hr').2
      have h4 : at_ (sectionData (some (.dict e))) = at_ r' := section_same e r' hp fun q hq => by
        cases q with
        | nil => rw [at_nil, at_nil]
        | cons k q => exact (congrFun hs' _).trans (at_cons_other m r' k (by simpa using hq) q)
      obtain ⟨r2, h5, h6⟩ := load_again hl _ r' _ hw hr' (wf_section (some (.dict e)) fun c hc => by cases hc; exact hwc) h4
      refine ⟨.dict (.cons moduleKey (.leaf m) r2), (act_module ..).mpr ⟨m, .dataclass norm, ?_, h2, r2, by rw [hc]; exact h5, rfl⟩, ?_⟩
      · exact hpick e rfl m ((congrFun hs' _).trans ((at_cons_same m r' []).trans (see_leaf_nil m))) hm
      · funext q
        cases q with
        | nil => rw [see_dict_nil, see_dict_nil]
        | cons k q =>
          show at_ _ _ = at_ _ _
          by_cases hk : k = moduleKey
          · subst hk; rw [at_cons_same, at_cons_same]
          · rw [at_cons_other m r2 k hk, at_cons_other m r' k hk, h6]
    | callable sig =>
      obtain ⟨r', hr', rfl⟩ := h3
      obtain ⟨e, rfl⟩ := dict_of_see ((hs [] trivial).trans (see_dict_nil _))
      obtain ⟨r2, h5, h6⟩ := callable_again _ _ (hg n) r' e hr' hwc hs'
      refine ⟨.dict r2, (act_module ..).mpr ⟨m, .callable sig, ?_, h2, r2, by rw [hc]; exact h5, rfl⟩, h6⟩
      have hse : at_ e [moduleKey] = at_ r' [moduleKey] := congrFun hs' _
      rw [getPath_section n hr.1] at h1
      match hx : getPath n M, hr', h1 with
      | none, hr', h1 =>
        simp only [callableData, Except.ok.injEq] at hr'
        rw [merge_nil] at hr'
        subst hr'
        exact hpick e rfl m (hse.trans ((at_cons_same m sig []).trans (see_leaf_nil m))) hm
      | some (.leaf v), hr', h1 => simp [callableData] at hr'
      | some (.dict u), hr', h1 =>
        simp only [callableData, Except.ok.injEq] at hr'
        subst hr'
        have hu : WF u := hg n _ hx
        have hlk := lookup_merge moduleKey u (.cons moduleKey (.leaf m) sig) hu
        cases hy : u.lookup moduleKey with
        | none =>
          rw [hy] at hlk
          refine hpick e rfl m (hse.trans ?_) hm
          rw [at_cons]
          show ((mergeInto _ _).lookup _).bind _ = _
          rw [hlk]
          simp [Entries.lookup, see_leaf_nil]
        | some y =>
          simp only [hy] at h1
          cases y with
          | dict z => cases h1
          | leaf v =>
            rw [hy] at hlk
            refine hpick e rfl v (hse.trans ?_) h1
            rw [at_cons]
            show ((mergeInto _ _).lookup _).bind _ = _
            rw [hlk]
            simp [mergeValue, see_leaf_nil]

/-! ### Running a program -/

theorem run_read {A : Type} (r : Read V) (next : (List Str → Option (Option V)) → Prog V A) (s : Session V) (x : A × List (List Str) × Session V) :
    (Prog.read r next).run s = .ok x ↔ ∃ c res names, r.act s.merged = .ok c ∧ setPath c r.name s.resolved = .ok res ∧
      (next (Cfg.see c)).run { s with resolved := res } = .ok (x.1, names, x.2.2) ∧ x.2.1 = r.name :: names := by
  rw [Prog.run]
  cases h1 : r.act s.merged with
  | error e => simp
  | ok c =>
    cases h2 : setPath c r.name s.resolved with
    | error e => simp [h2]
    | ok res =>
      cases h3 : (next (Cfg.see c)).run { s with resolved := res } with
      | error e => simp [h2, h3]
      | ok y =>
        obtain ⟨a, names, s'⟩ := y
        obtain ⟨a1, b1, c1⟩ := x
        simp only [h2, h3, Except.ok.injEq, Prod.mk.injEq]
        constructor
        · rintro ⟨rfl, rfl, rfl⟩; exact ⟨c, res, names, rfl, h2, h3, rfl⟩
        · rintro ⟨c', res', n2, rfl, h2', h3', rfl⟩
          rw [h2] at h2'
          cases h2'
          rw [h3] at h3'
          cases h3'
          exact ⟨rfl, rfl, rfl⟩

theorem name_ne {r : Read V} (h : LawfulRead r) : r.name ≠ [] := by
  cases r <;> exact h.1

/-- What is recorded stays, if the options read later are apart from it. -/
theorem run_frame {A : Type} (prog : Prog V A) : ∀ (s : Session V) (a : A) (names : List (List Str)) (s' : Session V), prog.run s = .ok (a, names, s') →
    (s'.presets = s.presets ∧ s'.user = s.user ∧ s'.cli = s.cli) ∧ ∀ n, (∀ m ∈ names, ¬ n <+: m ∧ ¬ m <+: n) → getPath n s'.resolved = getPath n s.resolved := by
  induction prog with
  | ret a => intro s b names s' h; simp [Prog.run] at h; obtain ⟨_, _, rfl⟩ := h; exact ⟨⟨rfl, rfl, rfl⟩, fun _ _ => rfl⟩
  | read r next ih =>
    intro s a names s' h
    rw [run_read] at h
    obtain ⟨c, res, names', h1, h2, h3, h4⟩ := h
    simp only at h4
    obtain ⟨h5, h6⟩ := ih _ _ _ _ _ h3
    refine ⟨h5, fun n hn => ?_⟩
    rw [h6 n fun m hm => hn m (by rw [h4]; simp [hm])]
    have := hn r.name (by rw [h4]; simp)
    exact setPath_frame c r.name n _ _ h2 this.2 this.1

/-- Recorded configurations are proper. -/
theorem run_wf {A : Type} (prog : Prog V A) : ∀ (s : Session V) (a : A) (names : List (List Str)) (s' : Session V), LawfulProg prog → WF s.merged → WF s.resolved →
    prog.run s = .ok (a, names, s') → WF s'.resolved := by
  induction prog with
  | ret a => intro s b names s' _ _ hw h; simp [Prog.run] at h; obtain ⟨_, _, rfl⟩ := h; exact hw
  | read r next ih =>
    intro s a names s' hl hM hw h
    rw [run_read] at h
    obtain ⟨c, res, names', h1, h2, h3, h4⟩ := h
    exact ih (Cfg.see c) { s with resolved := res } a names' s' (hl.2 _) hM (wf_setPath c (act_wf r hl.1 _ hM c h1) _ _ _ hw h2) h3

theorem hidden_prefix {t : List Str → Option (Option V)} {c : Cfg V} (n : List Str) (h : ∀ q, t (n ++ q) = Cfg.see c q) {q : List Str} (hq : Hidden (Cfg.see c) q) : Hidden t (n ++ q) := by
  obtain ⟨a, b, v, rfl, hb, ha⟩ := hq
  exact ⟨n ++ a, b, v, by simp, hb, (h a).trans ha⟩

theorem run_again {A : Type} (prog : Prog V A) (P M : Entries V) (hM : WF M) (hP : WF P) (hPM : ∀ p, at_ P p ≠ none → at_ M p ≠ none) :
    ∀ (s s2 : Session V) (a : A) (names : List (List Str)) (s' : Session V), LawfulProg prog → s.merged = M → WF s.resolved → at_ s2.resolved = at_ s.resolved →
    prog.run s = .ok (a, names, s') → s2.merged = deepMerge P s'.resolved → Apart names → ∃ s2', prog.run s2 = .ok (a, names, s2') ∧ at_ s2'.resolved = at_ s'.resolved := by
  induction prog with
  | ret a =>
    intro s s2 b names s' _ _ _ he h _ _
    simp [Prog.run] at h
    obtain ⟨rfl, rfl, rfl⟩ := h
    exact ⟨s2, rfl, he⟩
  | read r next ih =>
    intro s s2 a names s' hl hs hw he h hs2 hap
    have hwf : WF s'.resolved := run_wf _ s a names s' hl (hs ▸ hM) hw h
    rw [run_read] at h
    obtain ⟨c, res, names', h1, h2, h3, h4⟩ := h
    simp only at h4
    rw [h4] at hap
    have hap := List.pairwise_cons.mp hap
    have hn := name_ne hl.1
    rw [hs] at h1
    have hfin : getPath r.name s'.resolved = some c := by
      rw [(run_frame _ _ _ _ _ h3).2 r.name hap.1]
      exact setPath_get c r.name _ _ hn h2
    have hat : ∀ q, at_ s'.resolved (r.name ++ q) = Cfg.see c q := fun q => by rw [at_getPath _ hn, hfin]; rfl
    have hsee : ∀ q, Taken r q → at_ s2.merged (r.name ++ q) = Cfg.see c q := by
      intro q hq
      obtain ⟨a1, a2, a3⟩ := at_merge (r.name ++ q) P s'.resolved hwf
      rw [hs2]
      cases hx : Cfg.see c q with
      | some x => exact a1 x ((hat q).trans hx)
      | none =>
        by_cases hh : Hidden (at_ s'.resolved) (r.name ++ q)
        · exact a2 hh
        · rw [a3 ((hat q).trans hx) hh]
          by_contra hc
          rcases act_keeps r hl.1 M hM c h1 q hq (hPM _ hc) with h | h
          · exact h hx
          · exact hh (hidden_prefix r.name hat h)
    have hwf2 : WF s2.merged := by rw [hs2]; exact wf_merge _ _ hwf hP
    have hget : ∃ c', getPath r.name s2.merged = some c' ∧ ∀ q, Taken r q → Cfg.see c' q = Cfg.see c q := by
      have h0 : Taken r [] := by cases r <;> simp [Taken]
      cases hx : getPath r.name s2.merged with
      | none =>
        have := hsee [] h0
        rw [at_getPath _ hn, hx] at this
        exfalso
        cases c with
        | leaf v => rw [see_leaf_nil] at this; cases this
        | dict e => rw [see_dict_nil] at this; cases this
      | some c' =>
        refine ⟨c', rfl, fun q hq => ?_⟩
        have := hsee q hq
        rw [at_getPath _ hn, hx] at this
        exact this
    obtain ⟨c', hc', hsee'⟩ := hget
    obtain ⟨c2, h5, h6⟩ := act_replay r hl.1 M s2.merged hM hwf2 c c' h1 hc' hsee'
    obtain ⟨res2, h7, h8⟩ := setPath_same c c2 r.name hn h6 _ _ _ he h2
    obtain ⟨s2', h9, h10⟩ := ih (Cfg.see c) { s with resolved := res } { s2 with resolved := res2 } a names' s' (hl.2 _) hs
      (wf_setPath c (act_wf r hl.1 _ hM c h1) _ _ _ hw h2) h8 h3 hs2 hap.2
    refine ⟨s2', (run_read ..).mpr ⟨c2, res2, names', h5, h7, ?_, h4⟩, h10⟩
    rw [h6]
    exact h9

/-- Nothing of the presets is lost under layers that respect their sections. -/
theorem presets_stay (P U : Entries V) (hU : WF U) (h : Respects P U) (p : List Str) (hp : at_ P p ≠ none) : at_ (deepMerge P U) p ≠ none := by
  rcases absorbed_left P U hU p hp with h1 | ⟨q, r, v, rfl, hr, hq⟩
  · exact h1
  · have hpq : at_ P q = some none := see_above (.dict P) q r hr hp
    obtain ⟨a1, a2, a3⟩ := at_merge q P U hU
    cases hx : at_ U q with
    | some x =>
      rw [a1 x hx] at hq
      cases hq
      exact absurd hx (h q hpq v)
    | none =>
      by_cases hh : Hidden (at_ U) q
      · rw [a2 hh] at hq; cases hq
      · rw [a3 hx hh, hpq] at hq; cases hq

/-- C123: giving the recorded configuration as the configuration file of a run without command line options gives the same results, reads the
same options, and records the same configuration. -/
theorem c123_replay {A : Type} (prog : Prog V A) (hprog : LawfulProg prog) (presets user cli : Entries V) (hp : WF presets) (hu : WF user) (hc : WF cli)
    (hru : Respects presets user) (hrc : Respects presets cli) (a : A) (names : List (List Str)) (s : Session V)
    (h : prog.run (.start presets user cli) = .ok (a, names, s)) (hap : Apart names) :
    ∃ s', prog.run (.start presets s.resolved .nil) = .ok (a, names, s') ∧ at_ s'.resolved = at_ s.resolved := by
  refine run_again prog presets (deepMerge (deepMerge presets user) cli) (wf_merge _ _ hc (wf_merge _ _ hu hp)) hp ?_ (.start presets user cli) _ a names s hprog rfl
    (by simp [Session.start, WF]) rfl h (merge_nil _) hap
  intro p hpp
  have h1 := presets_stay presets user hu hru p hpp
  rcases absorbed_left (deepMerge presets user) cli hc p h1 with h2 | ⟨q, r, v, rfl, hr, hq⟩
  · exact h2
  · exfalso
    have hpq : at_ presets q = some none := see_above (.dict presets) q r hr hpp
    have hpq' : at_ (deepMerge presets user) q = some none := see_above (.dict _) q r hr h1
    obtain ⟨a1, a2, a3⟩ := at_merge q (deepMerge presets user) cli hc
    cases hx : at_ cli q with
    | some x =>
      rw [a1 x hx] at hq
      cases hq
      exact hrc q hpq v hx
    | none =>
      by_cases hh : Hidden (at_ cli) q
      · rw [a2 hh] at hq; cases hq
      · rw [a3 hx hh, hpq'] at hq; cases hq

/-- C123: without presets nothing has to be assumed about the files and the command line. -/
theorem c123_replay_no_presets {A : Type} (prog : Prog V A) (hprog : LawfulProg prog) (user cli : Entries V) (hu : WF user) (hc : WF cli)
    (a : A) (names : List (List Str)) (s : Session V) (h : prog.run (.start .nil user cli) = .ok (a, names, s)) (hap : Apart names) :
    ∃ s', prog.run (.start .nil s.resolved .nil) = .ok (a, names, s') ∧ at_ s'.resolved = at_ s.resolved := by
  have hr : ∀ l : Entries V, Respects .nil l := by
    intro l p hp v
    cases p with
    | nil => rw [at_nil]; simp
    | cons k p => rw [at_cons] at hp; simp [Entries.lookup] at hp
  exact c123_replay prog hprog .nil user cli (by simp [WF]) hu hc (hr _) (hr _) a names s h hap

/-- C123: all options read are in the record as they were read. -/
theorem c123_recorded {A : Type} (r : Read V) (next : (List Str → Option (Option V)) → Prog V A) (hn : r.name ≠ []) (s s' : Session V) (a : A) (names : List (List Str))
    (h : (Prog.read r next).run s = .ok (a, names, s')) (hap : Apart names) : ∃ c, r.act s.merged = .ok c ∧ ∀ q, at_ s'.resolved (r.name ++ q) = Cfg.see c q := by
  rw [run_read] at h
  obtain ⟨c, res, names', h1, h2, h3, h4⟩ := h
  simp only at h4
  rw [h4] at hap
  have hap := List.pairwise_cons.mp hap
  refine ⟨c, h1, fun q => ?_⟩
  rw [at_getPath _ hn, (run_frame _ _ _ _ _ h3).2 r.name hap.1, setPath_get c r.name _ _ hn h2]
  rfl

/-! ### A class with one field, and a program that reads several options -/

/-- A configurable class with the field `x`, which is a number and 3 if not given. -/
def box (d : Entries Nat) : Except Err (Entries Nat) :=
  if d.keys.all (· = "x".toList) then match d.lookup "x".toList with
    | none => .ok (.cons "x".toList (.leaf 3) .nil)
    | some (.leaf v) => .ok (.cons "x".toList (.leaf v) .nil)
    | some (.dict _) => .error .serde
  else .error .serde

/-- What `box` accepts, seen from outside. -/
theorem box_ok (d r : Entries Nat) (hd : WF d) : box d = .ok r ↔ ∃ v, r = .cons "x".toList (.leaf v) .nil ∧ (∀ k p, k ≠ "x".toList → at_ d (k :: p) = none) ∧
    (at_ d ["x".toList] = some (some v) ∨ at_ d ["x".toList] = none ∧ v = 3) := by
  have hk : (d.keys.all (· = "x".toList)) = true ↔ ∀ k p, k ≠ "x".toList → at_ d (k :: p) = none := by
    rw [List.all_eq_true]
    constructor
    · intro h k p hk
      have : d.lookup k = none := (lookup_none k d).mpr fun hm => hk (by simpa using h k hm)
      rw [at_cons, this]; rfl
    · intro h k hm
      by_contra hk
      have h0 := h k [] (by simpa using hk)
      rw [at_cons] at h0
      cases hl : d.lookup k with
      | none => exact (lookup_none k d).mp hl hm
      | some c =>
        rw [hl] at h0
        cases c with
        | leaf v => simp [see_leaf_nil] at h0
        | dict e => simp [see_dict_nil] at h0
  have hx : at_ d ["x".toList] = (d.lookup "x".toList).bind fun c => Cfg.see c [] := at_cons d _ _
  unfold box
  by_cases hkk : (d.keys.all (· = "x".toList)) = true
  · rw [if_pos hkk]
    have hkk' := hk.mp hkk
    rw [hx]
    cases hl : d.lookup "x".toList with
    | none => simp only [Option.bind_none, reduceCtorEq, false_or, true_and, Except.ok.injEq]; constructor
              · rintro rfl; exact ⟨3, rfl, hkk', rfl⟩
              · rintro ⟨v, rfl, _, rfl⟩; rfl
    | some c =>
      cases c with
      | leaf v =>
        simp only [Option.bind_some, see_leaf_nil, Except.ok.injEq, Option.some.injEq, reduceCtorEq, false_and, or_false]
        constructor
        · rintro rfl; exact ⟨v, rfl, hkk', rfl⟩
        · rintro ⟨w, rfl, _, rfl⟩; rfl
      | dict e =>
        simp only [Option.bind_some, see_dict_nil, reduceCtorEq, Option.some.injEq, false_and, or_self, and_false, exists_false]
  · rw [if_neg hkk]
    simp only [reduceCtorEq, false_iff]
    rintro ⟨v, _, h, _⟩
    exact hkk (hk.mpr h)

theorem box_lawful : LawfulClass box where
  order d d' r hd hd' he h := by
    obtain ⟨v, h1, h2, h3⟩ := (box_ok d r hd).mp h
    exact ⟨r, (box_ok d' r hd').mpr ⟨v, h1, by rw [← he]; exact h2, by rw [← he]; exact h3⟩, rfl⟩
  keeps d r hd h p := by
    obtain ⟨v, rfl, h2, h3⟩ := (box_ok d r hd).mp h
    match p with
    | [] => exact ⟨fun _ => Or.inl (by rw [at_nil]; simp), fun w hw => by rw [at_nil] at hw; cases hw⟩
    | k :: q =>
      by_cases hk : k = "x".toList
      · subst hk
        have e : at_ (.cons "x".toList (.leaf v) .nil) ["x".toList] = some (some v) := by rw [at_cons]; simp [Entries.lookup, see_leaf_nil]
        by_cases hq : q = []
        · subst hq
          rw [e]
          exact ⟨fun _ => Or.inl (by simp), fun w _ => Or.inl ⟨v, rfl⟩⟩
        · have : Hidden (at_ (.cons "x".toList (.leaf v) .nil)) ("x".toList :: q) := ⟨["x".toList], q, v, rfl, hq, e⟩
          exact ⟨fun _ => Or.inr this, fun _ _ => Or.inr this⟩
      · rw [h2 k q hk]
        exact ⟨(nomatch ·), fun _ h => nomatch h⟩
  proper d r hd h := by
    obtain ⟨v, rfl, h2, h3⟩ := (box_ok d r hd).mp h
    exact ⟨by simp [WF, WFValue, Entries.keys], by simp [Entries.lookup, moduleKey]⟩
  again d r hd h := by
    obtain ⟨v, rfl, h2, h3⟩ := (box_ok d r hd).mp h
    exact ⟨_, by simp [box, Entries.keys, Entries.lookup], rfl⟩

/-- The key `a`, and so on. -/
def key (c : Char) : Str := [c]

/-- A number: as given, and 7 if not given. -/
def number : Option (Cfg Nat) → Except Err Nat
  | none => .ok 7
  | some (.leaf v) => .ok v
  | some (.dict _) => .error .serde

/-- `choose` of a module given by its number, 1 if not given. -/
def chooser : Option Nat → Except Err Nat
  | none => .ok 1
  | some v => .ok v

/-- Module 1 is `box`, module 2 a function with a parameter `y`, and there is no other. -/
def modules : Nat → Except Err (Impl Nat)
  | 1 => .ok (.dataclass box)
  | 2 => .ok (.callable (.cons (key 'y') (.leaf 5) .nil))
  | _ => .error .serde

/-- A program that reads a number `s.n`, a section `b`, a module `m`, a container `c` and, if the number is 9, a function `f`. -/
def demo : Prog Nat Nat :=
  .read (.primitive [key 's', key 'n'] number) fun t =>
  .read (.dataclass [key 'b'] .nil box) fun u =>
  .read (.module [key 'm'] chooser modules) fun w =>
  .read (.container [key 'c'] (.dict (.cons (key 'p') (.leaf 1) (.cons (key 'q') (.leaf 2) .nil)))) fun _ =>
  if t [] = some (some 9) then .read (.callable [key 'f'] (.cons (key 'z') (.leaf 4) .nil)) fun _ => .ret (((u ["x".toList]).getD none).getD 0)
  else .ret (((w [key 'y']).getD none).getD 0)

theorem demo_lawful : LawfulProg demo := by
  refine ⟨⟨by simp, ?_⟩, fun t => ⟨⟨by simp, by simp [WF], by simp [Entries.lookup], box_lawful⟩, fun u => ⟨⟨by simp, ?_, ?_⟩, fun w => ⟨⟨by simp, ?_⟩, fun _ => ?_⟩⟩⟩⟩
  · intro x v h
    match x, h with
    | none, h => simp [number]
    | some (.leaf w), h => simp [number]
    | some (.dict _), h => simp [number] at h
  · intro x m h
    cases x <;> simp [chooser]
  · intro m i h
    match m, h with
    | 1, h => cases h; exact box_lawful
    | 2, h => cases h; exact ⟨by simp [WF, WFValue, Entries.keys], by simp [Entries.lookup, moduleKey, key]⟩
    | 0, h => cases h
    | n + 3, h => cases h
  · simp [WFValue, WF, Entries.keys, key]
  · show LawfulProg (if _ then _ else _)
    split_ifs
    · exact ⟨⟨by simp, by simp [WF, WFValue, Entries.keys]⟩, fun _ => trivial⟩
    · trivial

/-- Files that choose the function for `m` and give `s.n` and `b.x`; the command line changes `c.q`. -/
def demoFile : Entries Nat := .cons (key 's') (.dict (.cons (key 'n') (.leaf 9) .nil)) (.cons (key 'b') (.dict (.cons "x".toList (.leaf 6) .nil))
  (.cons (key 'm') (.dict (.cons moduleKey (.leaf 2) .nil)) .nil))
/-- The command line of the example. -/
def demoCli : Entries Nat := .cons (key 'c') (.dict (.cons (key 'q') (.leaf 8) .nil)) .nil

/-- What the example run records. -/
def demoRecord : Entries Nat := .cons (key 's') (.dict (.cons (key 'n') (.leaf 9) .nil)) (.cons (key 'b') (.dict (.cons "x".toList (.leaf 6) .nil))
  (.cons (key 'm') (.dict (.cons moduleKey (.leaf 2) (.cons (key 'y') (.leaf 5) .nil))) (.cons (key 'c') (.dict (.cons (key 'p') (.leaf 1) (.cons (key 'q') (.leaf 8) .nil)))
  (.cons (key 'f') (.dict (.cons (key 'z') (.leaf 4) .nil)) .nil))))

theorem demo_run : demo.run (.start .nil demoFile demoCli) = .ok (6, [[key 's', key 'n'], [key 'b'], [key 'm'], [key 'c'], [key 'f']], ⟨.nil, demoFile, demoCli, demoRecord⟩) := by
  simp [demo, demoFile, demoCli, demoRecord, Prog.run, Read.act, Session.start, Session.merged, deepMerge, mergeInto, mergeValue, Entries.set, Entries.lookup, getPath, key, number,
    setPath, Read.name, box, sectionData, Entries.erase, Entries.keys, moduleKey, chooser, modules, callableData, see_leaf_nil, see_dict_cons]

/-- The hypotheses of `c123_replay_no_presets` hold for the example, so running on the record gives 6 again. -/
example : ∃ s', demo.run (.start .nil demoRecord .nil) = .ok (6, [[key 's', key 'n'], [key 'b'], [key 'm'], [key 'c'], [key 'f']], s') ∧ at_ s'.resolved = at_ demoRecord :=
  c123_replay_no_presets demo demo_lawful demoFile demoCli (by simp [demoFile, WF, WFValue, Entries.keys, key]) (by simp [demoCli, WF, WFValue, Entries.keys]) 6 _ _ demo_run
    (by simp [Apart, key])

/-- Layers that respect sections, on an example: presets `b.x = 1`, the file has `b.x = 6`. -/
example : Respects (.cons (key 'b') (.dict (.cons "x".toList (.leaf 1) .nil)) .nil) demoFile := by
  intro p hp v
  match p with
  | [] => rw [at_nil]; simp
  | k :: q =>
    rw [at_cons] at hp
    simp only [Entries.lookup] at hp
    split_ifs at hp with hk
    · subst hk
      simp only [Option.bind_some] at hp
      match q with
      | [] => simp [at_cons, demoFile, Entries.lookup, key, see_dict_nil]
      | k :: q =>
        rw [see_dict_cons] at hp
        simp only [Entries.lookup] at hp
        split_ifs at hp with hk
        · cases q with
          | nil => simp [see_leaf_nil] at hp
          | cons _ _ => simp [see_leaf_cons] at hp
        · simp at hp
    · simp at hp

/-- C123, why sections must be respected: with presets `b.x = 1`, a file that puts the number 5 at `b` and a command line that gives `b.y = 2`, the container
`b` is read as `{y: 2}` and recorded; on the record it is read as `{x: 1, y: 2}`. -/
theorem c123_reopened_section_differs : ∃ (prog : Prog Nat (Option (Option Nat))) (presets user cli : Entries Nat) (s s' : Session Nat), LawfulProg prog ∧ WF presets ∧ WF user ∧ WF cli ∧
    prog.run (.start presets user cli) = .ok (none, [[key 'b']], s) ∧ prog.run (.start presets s.resolved .nil) = .ok (some (some 1), [[key 'b']], s') := by
  refine ⟨.read (.container [key 'b'] (.dict .nil)) fun t => .ret (t ["x".toList]), .cons (key 'b') (.dict (.cons "x".toList (.leaf 1) .nil)) .nil, .cons (key 'b') (.leaf 5) .nil,
    .cons (key 'b') (.dict (.cons "y".toList (.leaf 2) .nil)) .nil, ⟨(.cons (key 'b') (.dict (.cons "x".toList (.leaf 1) .nil)) .nil), (.cons (key 'b') (.leaf 5) .nil), (.cons (key 'b') (.dict (.cons "y".toList (.leaf 2) .nil)) .nil), .cons (key 'b') (.dict (.cons "y".toList (.leaf 2) .nil)) .nil⟩,
    ⟨(.cons (key 'b') (.dict (.cons "x".toList (.leaf 1) .nil)) .nil), (.cons (key 'b') (.dict (.cons "y".toList (.leaf 2) .nil)) .nil), .nil, .cons (key 'b') (.dict (.cons "x".toList (.leaf 1) (.cons "y".toList (.leaf 2) .nil))) .nil⟩,
    ⟨⟨by simp, by simp [WFValue, WF]⟩, fun _ => trivial⟩, by simp [WF, WFValue, Entries.keys], by simp [WF, WFValue, Entries.keys], by simp [WF, WFValue, Entries.keys], ?_, ?_⟩
  · simp [Prog.run, Read.act, Session.start, Session.merged, deepMerge, mergeInto, mergeValue, Entries.set, Entries.lookup, getPath, setPath, Read.name, see_dict_cons]
  · simp [Prog.run, Read.act, Session.start, Session.merged, deepMerge, mergeInto, mergeValue, Entries.set, Entries.lookup, getPath, setPath, Read.name, see_dict_cons, see_leaf_nil]

/-- C123, why the options read must be apart: `b.x` with default 7 is read and then the container `b` with default `{x: 2}`, without any configuration.
The record has `b = {x: 2}` only, and on it `b.x` is read as 2. -/
theorem c123_overlapping_reads_differ : ∃ (prog : Prog Nat (Option (Option Nat))) (s s' : Session Nat), LawfulProg prog ∧
    prog.run (.start .nil .nil .nil) = .ok (some (some 7), [[key 'b', "x".toList], [key 'b']], s) ∧
    prog.run (.start .nil s.resolved .nil) = .ok (some (some 2), [[key 'b', "x".toList], [key 'b']], s') := by
  refine ⟨.read (.primitive [key 'b', "x".toList] number) fun t => .read (.container [key 'b'] (.dict (.cons "x".toList (.leaf 2) .nil))) fun _ => .ret (t []),
    ⟨.nil, .nil, .nil, .cons (key 'b') (.dict (.cons "x".toList (.leaf 2) .nil)) .nil⟩, ⟨.nil, (.cons (key 'b') (.dict (.cons "x".toList (.leaf 2) .nil)) .nil), .nil, .cons (key 'b') (.dict (.cons "x".toList (.leaf 2) .nil)) .nil⟩,
    ⟨⟨by simp, ?_⟩, fun _ => ⟨⟨by simp, by simp [WFValue, WF, Entries.keys]⟩, fun _ => trivial⟩⟩, ?_, ?_⟩
  · intro x v h
    match x, h with
    | none, h => simp [number]
    | some (.leaf w), h => simp [number]
    | some (.dict _), h => simp [number] at h
  · simp [Prog.run, Read.act, Session.start, Session.merged, deepMerge, mergeInto, Entries.set, Entries.lookup, getPath, setPath, Read.name, see_leaf_nil, number]
  · simp [Prog.run, Read.act, Session.start, Session.merged, deepMerge, mergeInto, mergeValue, Entries.set, Entries.lookup, getPath, setPath, Read.name, see_leaf_nil, number]

end Jaqmc.Replay.Props
