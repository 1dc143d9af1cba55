import Verif.Spec.ConfigClass
import Verif.Props.Replay
/-!
C124: configurable classes and their `module_config` fields.
-/
namespace Jaqmc.ConfigClass.Props
open Jaqmc.Config Jaqmc.Config.Spec Jaqmc.Config.Props Jaqmc.Replay Jaqmc.Replay.Spec Jaqmc.Replay.Props Jaqmc.ConfigClass Jaqmc.ConfigClass.Spec

variable {V : Type}

/-! ### Classes with fields -/

theorem see_ne_none (c : Cfg V) : Cfg.see c [] ≠ none := by
  cases c with
  | leaf v => rw [see_leaf_nil]; simp
  | dict e => rw [see_dict_nil]; simp

theorem peek_none {x : Option (Cfg V)} : peek x [] = none ↔ x = none := by
  cases x with
  | none => simp [peek]
  | some c => simp [peek, see_ne_none c]

theorem loadAll_ok (fs : List (Field V)) (hfs : (fs.map (·.key)).Nodup) (d r : Entries V) (h : loadAll fs d = .ok r) :
    r.keys = fs.map (·.key) ∧ ∀ f ∈ fs, ∃ c, f.load (d.lookup f.key) = .ok c ∧ r.lookup f.key = some c := by
  induction fs generalizing r with
  | nil => simp [loadAll] at h; subst h; simp [Entries.keys]
  | cons f fs ih =>
    simp only [loadAll] at h
    cases h1 : f.load (d.lookup f.key) with
    | error e => rw [h1] at h; cases h
    | ok c =>
      cases h2 : loadAll fs d with
      | error e => rw [h1, h2] at h; cases h
      | ok r' =>
        rw [h1, h2] at h
        cases h
        simp only [List.map_cons, List.nodup_cons] at hfs
        obtain ⟨h3, h4⟩ := ih hfs.2 r' h2
        refine ⟨by simp [Entries.keys, h3], fun g hg => ?_⟩
        rcases List.mem_cons.mp hg with rfl | hg
        · exact ⟨c, h1, by simp [Entries.lookup]⟩
        · obtain ⟨c', h5, h6⟩ := h4 g hg
          refine ⟨c', h5, ?_⟩
          rw [Entries.lookup, if_neg, h6]
          intro he
          exact hfs.1 (List.mem_map.mpr ⟨g, hg, he.symm⟩)

theorem loadAll_exists (fs : List (Field V)) (d : Entries V) (h : ∀ f ∈ fs, ∃ c, f.load (d.lookup f.key) = .ok c) : ∃ r, loadAll fs d = .ok r := by
  induction fs with
  | nil => exact ⟨.nil, rfl⟩
  | cons f fs ih =>
    obtain ⟨c, hc⟩ := h f (by simp)
    obtain ⟨r, hr⟩ := ih fun g hg => h g (by simp [hg])
    exact ⟨.cons f.key c r, by simp [loadAll, hc, hr]⟩

theorem lookup_keys (d : Entries V) (k : Str) : k ∈ d.keys ↔ d.lookup k ≠ none := by
  have := lookup_none k d
  tauto

/-- A class accepts a dictionary exactly if it has only fields as keys and every field accepts its value; it then has all fields, with what they load. -/
theorem record_ok (fs : List (Field V)) (hfs : (fs.map (·.key)).Nodup) (d r : Entries V) (h : record fs d = .ok r) :
    (∀ k ∈ d.keys, k ∈ fs.map (·.key)) ∧ r.keys = fs.map (·.key) ∧ ∀ f ∈ fs, ∃ c, f.load (d.lookup f.key) = .ok c ∧ r.lookup f.key = some c := by
  unfold record at h
  split_ifs at h with hk
  refine ⟨fun k hkd => ?_, loadAll_ok fs hfs d r h⟩
  rw [List.all_eq_true] at hk
  have := hk k hkd
  rw [List.any_eq_true] at this
  obtain ⟨f, hf, he⟩ := this
  exact List.mem_map.mpr ⟨f, hf, by simpa using he⟩

theorem record_exists (fs : List (Field V)) (d : Entries V) (hk : ∀ k ∈ d.keys, k ∈ fs.map (·.key)) (h : ∀ f ∈ fs, ∃ c, f.load (d.lookup f.key) = .ok c) : ∃ r, record fs d = .ok r := by
  obtain ⟨r, hr⟩ := loadAll_exists fs d h
  refine ⟨r, ?_⟩
  unfold record
  rw [if_pos, hr]
  rw [List.all_eq_true]
  intro k hkd
  rw [List.any_eq_true]
  obtain ⟨f, hf, he⟩ := List.mem_map.mp (hk k hkd)
  exact ⟨f, hf, by simpa using he⟩

theorem at_peek (d : Entries V) (k : Str) (q : List Str) : at_ d (k :: q) = peek (d.lookup k) q := at_cons d k q

theorem wf_field {d : Entries V} (hd : WF d) (k : Str) : WFOption (d.lookup k) := fun c hc => wf_lookup k c d hd hc

theorem wf_of_lookups : (r : Entries V) → r.keys.Nodup → (∀ k c, r.lookup k = some c → WFValue c) → WF r
  | .nil, _, _ => by simp [WF]
  | .cons k c r, hn, h => by
    simp only [Entries.keys, List.nodup_cons] at hn
    refine ⟨hn.1, h k c (by simp [Entries.lookup]), wf_of_lookups r hn.2 fun k' c' hc' => h k' c' ?_⟩
    rw [Entries.lookup, if_neg, hc']
    rintro rfl
    exact hn.1 ((lookup_keys r _).mpr (by rw [hc']; simp))

/-- Two dictionaries with the same keys and the same values seen. -/
theorem at_of_lookups (r r' : Entries V) (fs : List (Field V)) (hk : r.keys = fs.map (·.key)) (hk' : r'.keys = fs.map (·.key))
    (h : ∀ f ∈ fs, peek (r'.lookup f.key) = peek (r.lookup f.key)) : at_ r' = at_ r := by
  funext p
  cases p with
  | nil => rw [at_nil, at_nil]
  | cons k q =>
    rw [at_peek, at_peek]
    by_cases hm : k ∈ fs.map (·.key)
    · obtain ⟨f, hf, rfl⟩ := List.mem_map.mp hm
      rw [h f hf]
    · rw [(lookup_none k r).mpr (by rw [hk]; exact hm), (lookup_none k r').mpr (by rw [hk']; exact hm)]

/-- C124: a class with lawful fields, none of which is called `module`, is a lawful class: loading does not depend on the order of keys, keeps everything
that is given, and what it dumps loads as the same. -/
theorem c124_record_lawful (fs : List (Field V)) (hfs : (fs.map (·.key)).Nodup) (hm : moduleKey ∉ fs.map (·.key)) (hl : ∀ f ∈ fs, LawfulField f.load) : LawfulClass (record fs) where
  order d d' r hd hd' he h := by
    obtain ⟨h1, h2, h3⟩ := record_ok fs hfs d r h
    have hp : ∀ k, peek (d.lookup k) = peek (d'.lookup k) := fun k => funext fun q => by rw [← at_peek, ← at_peek, he]
    obtain ⟨r', hr'⟩ := record_exists fs d' (fun k hk => h1 k (by
      rw [lookup_keys] at hk ⊢
      intro hn
      apply hk
      rw [← peek_none, ← hp k, peek_none]
      exact hn)) fun f hf => by
        obtain ⟨c, hc, _⟩ := h3 f hf
        obtain ⟨c', hc', _⟩ := (hl f hf).order _ _ c (wf_field hd _) (wf_field hd' _) (hp _) hc
        exact ⟨c', hc'⟩
    refine ⟨r', hr', ?_⟩
    obtain ⟨_, g2, g3⟩ := record_ok fs hfs d' r' hr'
    refine at_of_lookups r r' fs h2 g2 fun f hf => ?_
    obtain ⟨c, hc, hc2⟩ := h3 f hf
    obtain ⟨c', hc', hs⟩ := (hl f hf).order _ _ c (wf_field hd _) (wf_field hd' _) (hp _) hc
    obtain ⟨c'', hc'', hc3⟩ := g3 f hf
    rw [hc'] at hc''
    cases hc''
    rw [hc2, hc3]
    exact hs
  keeps d r hd h p := by
    obtain ⟨h1, h2, h3⟩ := record_ok fs hfs d r h
    match p with
    | [] => exact ⟨fun _ => Or.inl (by rw [at_nil]; simp), fun w hw => by rw [at_nil] at hw; cases hw⟩
    | k :: q =>
      by_cases hk : k ∈ d.keys
      · obtain ⟨f, hf, rfl⟩ := List.mem_map.mp (h1 k hk)
        obtain ⟨c, hc, hc2⟩ := h3 f hf
        have hr : ∀ q, at_ r (f.key :: q) = Cfg.see c q := fun q => by rw [at_peek, hc2]; rfl
        have hh : Hidden (Cfg.see c) q → Hidden (at_ r) (f.key :: q) := fun h => hidden_prefix [f.key] hr h
        have := (hl f hf).keeps _ c (wf_field hd _) hc q
        rw [at_peek, hr]
        exact ⟨fun h => (this.1 h).imp id hh, fun v h => (this.2 v h).imp id hh⟩
      · rw [at_peek, (lookup_none k d).mpr hk]
        exact ⟨(nomatch ·), fun _ h => nomatch h⟩
  proper d r hd h := by
    obtain ⟨h1, h2, h3⟩ := record_ok fs hfs d r h
    refine ⟨wf_of_lookups r (by rw [h2]; exact hfs) fun k c hc => ?_, (lookup_none _ _).mpr (by rw [h2]; exact hm)⟩
    have hk : k ∈ r.keys := (lookup_keys r k).mpr (by rw [hc]; simp)
    rw [h2] at hk
    obtain ⟨f, hf, rfl⟩ := List.mem_map.mp hk
    obtain ⟨c', hc', hc2⟩ := h3 f hf
    rw [hc] at hc2
    cases hc2
    exact (hl f hf).proper _ _ (wf_field hd _) hc'
  again d r hd h := by
    obtain ⟨h1, h2, h3⟩ := record_ok fs hfs d r h
    obtain ⟨r', hr'⟩ := record_exists fs r (fun k hk => by rw [← h2]; exact hk) fun f hf => by
      obtain ⟨c, hc, hc2⟩ := h3 f hf
      obtain ⟨c', hc', _⟩ := (hl f hf).again _ c (wf_field hd _) hc
      exact ⟨c', by rw [hc2]; exact hc'⟩
    refine ⟨r', hr', ?_⟩
    obtain ⟨_, g2, g3⟩ := record_ok fs hfs r r' hr'
    refine at_of_lookups r r' fs h2 g2 fun f hf => ?_
    obtain ⟨c, hc, hc2⟩ := h3 f hf
    obtain ⟨c', hc', hs⟩ := (hl f hf).again _ c (wf_field hd _) hc
    obtain ⟨c'', hc'', hc3⟩ := g3 f hf
    rw [hc2, hc'] at hc''
    cases hc''
    rw [hc2, hc3]
    exact hs

/-! ### `module_config` fields -/

/-- What loading a dictionary does. -/
theorem loadDict_ok (f : ModuleField V) (u : Entries V) (c : Cfg V) : f.loadDict u = .ok c ↔
    ∃ m k r, (u.lookup moduleKey = some (.leaf m) ∨ u.lookup moduleKey = none ∧ f.defaultModule = some m) ∧ f.resolve m = .ok k ∧
      k.norm (deepMerge f.kwargs (u.erase moduleKey)) = .ok r ∧ c = dumpInstance k r := by
  have key : ∀ m, (match f.resolve m with
    | .error e => Except.error e
    | .ok c => match c.norm (deepMerge f.kwargs (u.erase moduleKey)) with
      | .error e => .error e
      | .ok r => .ok (dumpInstance c r)) = .ok c ↔ ∃ k r, f.resolve m = .ok k ∧ k.norm (deepMerge f.kwargs (u.erase moduleKey)) = .ok r ∧ c = dumpInstance k r := by
    intro m
    cases h1 : f.resolve m with
    | error e => simp
    | ok k =>
      cases h2 : k.norm (deepMerge f.kwargs (u.erase moduleKey)) with
      | error e => simp [h2]
      | ok r => simp [h2, eq_comm]
  unfold ModuleField.loadDict
  match hu : u.lookup moduleKey with
  | none =>
    match hd : f.defaultModule with
    | none => simp
    | some m =>
      refine (key m).trans ⟨fun ⟨k, r, h⟩ => ⟨m, k, r, Or.inr ⟨rfl, rfl⟩, h⟩, ?_⟩
      rintro ⟨m', k, r, h | ⟨_, h⟩, h'⟩
      · cases h
      · cases h; exact ⟨k, r, h'⟩
  | some (.leaf m) =>
    refine (key m).trans ⟨fun ⟨k, r, h⟩ => ⟨m, k, r, Or.inl rfl, h⟩, ?_⟩
    rintro ⟨m', k, r, h | ⟨h, _⟩, h'⟩
    · cases h; exact ⟨k, r, h'⟩
    · cases h
  | some (.dict e) => simp

theorem at_instance_module (k : Cls V) (r : Entries V) (q : List Str) : Cfg.see (dumpInstance k r) (moduleKey :: q) = Cfg.see (.leaf k.name) q := at_cons_same k.name r q

theorem at_instance_other (k : Cls V) (r : Entries V) (j : Str) (hj : j ≠ moduleKey) (q : List Str) : Cfg.see (dumpInstance k r) (j :: q) = at_ r (j :: q) := at_cons_other k.name r j hj q

theorem see_instance {k : Cls V} {r r' : Entries V} (h : at_ r' = at_ r) : Cfg.see (dumpInstance k r') = Cfg.see (dumpInstance k r) := by
  funext q
  cases q with
  | nil => exact (see_dict_nil _).trans (see_dict_nil _).symm
  | cons j q =>
    by_cases hj : j = moduleKey
    · subst hj; rw [at_instance_module, at_instance_module]
    · rw [at_instance_other k r' j hj, at_instance_other k r j hj, h]

theorem at_erase_same (u u' : Entries V) (h : at_ u = at_ u') : at_ (u.erase moduleKey) = at_ (u'.erase moduleKey) := by
  funext p
  cases p with
  | nil => rw [at_nil, at_nil]
  | cons k q => rw [at_erase, at_erase, h]

/-- Merging depends on what is seen only. -/
theorem at_merge_congr (b o o' : Entries V) (ho : WF o) (ho' : WF o') (h : at_ o = at_ o') : at_ (deepMerge b o) = at_ (deepMerge b o') := by
  funext p
  obtain ⟨a1, a2, a3⟩ := at_merge p b o ho
  obtain ⟨b1, b2, b3⟩ := at_merge p b o' ho'
  rw [h] at a1 a2 a3
  cases hx : at_ o' p with
  | some x => rw [a1 x hx, b1 x hx]
  | none =>
    by_cases hh : Hidden (at_ o') p
    · rw [a2 hh, b2 hh]
    · rw [a3 hx hh, b3 hx hh]

theorem lookup_leaf_of_at {u : Entries V} {k : Str} {v : V} (h : at_ u [k] = some (some v)) : u.lookup k = some (.leaf v) := by
  rw [at_peek] at h
  cases hx : u.lookup k with
  | none => rw [hx] at h; cases h
  | some x => rw [hx] at h; rw [leaf_of_see h]

theorem at_of_lookup_leaf {u : Entries V} {k : Str} {v : V} (h : u.lookup k = some (.leaf v)) : at_ u [k] = some (some v) := by
  rw [at_peek, h]; exact see_leaf_nil v

theorem lookup_none_of_at {u : Entries V} {k : Str} : at_ u [k] = none ↔ u.lookup k = none := by
  rw [at_peek, peek_none]

/-- Loading the dump of an instance. -/
theorem instance_again (f : ModuleField V) (hf : LawfulModuleField f) (k : Cls V) (m : V) (hk : f.resolve m = .ok k) (d r e : Entries V) (hd : WF d) (hr : k.norm d = .ok r)
    (habs : Absorbed (at_ f.kwargs) (at_ r)) (he : WF e) (hs : at_ e = Cfg.see (dumpInstance k r)) : ∃ c', f.loadDict e = .ok c' ∧ Cfg.see c' = Cfg.see (dumpInstance k r) := by
  have hl := hf.classes m k hk
  have h1 : e.lookup moduleKey = some (.leaf k.name) := lookup_leaf_of_at (by rw [hs, at_instance_module, see_leaf_nil])
  have h2 : at_ (e.erase moduleKey) = at_ r := by
    funext p
    cases p with
    | nil => rw [at_nil, at_nil]
    | cons j q =>
      rw [at_erase]
      split_ifs with hj
      · subst hj; rw [at_peek, (hl.proper d r hd hr).2]; rfl
      · rw [hs, at_instance_other k r j (Ne.symm hj)]
  have h3 : at_ (deepMerge f.kwargs (e.erase moduleKey)) = at_ r := merge_absorbed (wf_erase _ e he) h2 habs
  obtain ⟨r', h4, h5⟩ := load_again hl d r _ hd hr (wf_merge _ _ (wf_erase _ e he) hf.kwargs) h3
  exact ⟨dumpInstance k r', (loadDict_ok ..).mpr ⟨k.name, k, r', Or.inl h1, hf.names m k hk, h4, rfl⟩, see_instance h5⟩

theorem wf_instance (k : Cls V) {r : Entries V} (h1 : WF r) (h2 : r.lookup moduleKey = none) : WF (.cons moduleKey (.leaf k.name) r) := by
  refine ⟨(lookup_none _ _).mp h2, by simp [WFValue], h1⟩

theorem keeps_refl (t : List Str → Option (Option V)) : Keeps t t := fun p => ⟨fun h => Or.inl (by rw [h]; simp), fun v h => Or.inl ⟨v, h⟩⟩

/-- C124: a `module_config` field is lawful if its classes are and if each is found under the name it dumps: a field loaded from the configuration, or left
to its default, dumps what loads as the same object, with everything that was given. -/
theorem c124_module_field_lawful (f : ModuleField V) (hf : LawfulModuleField f) : LawfulField f.load where
  order x x' c hx hx' hp h := by
    match x, x', hx, hx', hp, h with
    | none, none, _, _, _, h => exact ⟨c, h, rfl⟩
    | none, some c', _, _, hp, _ => exact absurd (congrFun hp []).symm (see_ne_none c')
    | some c', none, _, _, hp, _ => exact absurd (congrFun hp []) (see_ne_none c')
    | some (.leaf v), some y, _, _, hp, h =>
      have : y = .leaf v := leaf_of_see ((congrFun hp []).symm.trans (see_leaf_nil v))
      subst this
      exact ⟨c, h, rfl⟩
    | some (.dict u), some y, hx, hx', hp, h =>
      obtain ⟨u', rfl⟩ := dict_of_see ((congrFun hp []).symm.trans (see_dict_nil u))
      have he : at_ u = at_ u' := hp
      have hu : WF u := hx _ rfl
      have hu' : WF u' := hx' _ rfl
      obtain ⟨m, k, r, h1, h2, h3, rfl⟩ := (loadDict_ok f u c).mp h
      have hw := wf_merge f.kwargs _ (wf_erase moduleKey u hu) hf.kwargs
      have hw' := wf_merge f.kwargs _ (wf_erase moduleKey u' hu') hf.kwargs
      obtain ⟨r', h4, h5⟩ := (hf.classes m k h2).order _ _ r hw hw' (at_merge_congr _ _ _ (wf_erase _ u hu) (wf_erase _ u' hu') (at_erase_same u u' he)) h3
      refine ⟨dumpInstance k r', (loadDict_ok ..).mpr ⟨m, k, r', ?_, h2, h4, rfl⟩, see_instance h5⟩
      rcases h1 with h1 | ⟨h1, h1'⟩
      · exact Or.inl (lookup_leaf_of_at (he ▸ at_of_lookup_leaf h1))
      · exact Or.inr ⟨lookup_none_of_at.mp (he ▸ lookup_none_of_at.mpr h1), h1'⟩
  keeps x c hx h := by
    match x, hx, h with
    | none, _, _ => exact fun p => ⟨(nomatch ·), fun _ h => nomatch h⟩
    | some (.leaf v), _, h =>
      simp only [ModuleField.load] at h
      split at h <;> cases h
      rename_i w hw
      intro p
      cases p with
      | nil => rw [see_leaf_nil]; exact ⟨fun _ => Or.inl (by simp), fun _ _ => Or.inl ⟨w, rfl⟩⟩
      | cons j q =>
        have : peek (some (Cfg.leaf v)) (j :: q) = none := see_leaf_cons v j q
        rw [this]
        exact ⟨(nomatch ·), fun _ h => nomatch h⟩
    | some (.dict u), hx, h =>
      have hu : WF u := hx _ rfl
      obtain ⟨m, k, r, h1, h2, h3, rfl⟩ := (loadDict_ok f u c).mp h
      have hwe := wf_erase moduleKey u hu
      have hk := (hf.classes m k h2).keeps _ _ (wf_merge f.kwargs _ hwe hf.kwargs) h3
      intro p
      cases p with
      | nil =>
        have : peek (some (Cfg.dict u)) [] = some none := see_dict_nil u
        rw [this]
        exact ⟨fun _ => Or.inl (see_ne_none _), fun v hv => nomatch hv⟩
      | cons j q =>
        show (at_ u (j :: q) = _ → _) ∧ ∀ v, at_ u (j :: q) = _ → _
        by_cases hj : j = moduleKey
        · subst hj
          by_cases hq : q = []
          · subst hq
            rw [at_instance_module, see_leaf_nil]
            exact ⟨fun _ => Or.inl (by simp), fun _ _ => Or.inl ⟨k.name, rfl⟩⟩
          · have : Hidden (Cfg.see (dumpInstance k r)) (moduleKey :: q) := ⟨[moduleKey], q, k.name, rfl, hq, by rw [at_instance_module, see_leaf_nil]⟩
            exact ⟨fun _ => Or.inr this, fun _ _ => Or.inr this⟩
        · have e1 : at_ u (j :: q) = at_ (u.erase moduleKey) (j :: q) := by rw [at_erase, if_neg (Ne.symm hj)]
          rw [e1, at_instance_other k r j hj]
          have hh : Hidden (at_ r) (j :: q) → Hidden (Cfg.see (dumpInstance k r)) (j :: q) := by
            rintro ⟨a, b, v, hab, hb, hv⟩
            cases a with
            | nil => rw [at_nil] at hv; cases hv
            | cons j' a =>
              have : j = j' := (List.cons.inj hab).1
              subst this
              exact ⟨j :: a, b, v, hab, hb, by rw [at_instance_other k r j hj]; exact hv⟩
          have hm := (at_merge (j :: q) f.kwargs _ hwe).1
          exact ⟨fun h => ((hk _).1 (hm _ h)).imp id hh, fun v h => ((hk _).2 v (hm _ h)).imp id hh⟩
  proper x c hx h := by
    match x, hx, h with
    | none, _, h =>
      simp only [ModuleField.load] at h
      match hd : f.default, h with
      | .direct v, h => cases h; simp [WFValue]
      | .cls m k, h =>
        cases hr : k.norm f.kwargs with
        | error e => simp only [hr] at h; cases h
        | ok r =>
        simp only [hr] at h
        cases h
        obtain ⟨p1, p2⟩ := (hf.classes m k (hf.default m k hd)).proper _ _ hf.kwargs hr
        exact ⟨(lookup_none _ _).mp p2, by simp [WFValue], p1⟩
    | some (.leaf v), _, h =>
      simp only [ModuleField.load] at h
      split at h <;> cases h
      simp [WFValue]
    | some (.dict u), hx, h =>
      obtain ⟨m, k, r, h1, h2, h3, rfl⟩ := (loadDict_ok f u c).mp h
      obtain ⟨p1, p2⟩ := (hf.classes m k h2).proper _ _ (wf_merge f.kwargs _ (wf_erase moduleKey u (hx _ rfl)) hf.kwargs) h3
      exact ⟨(lookup_none _ _).mp p2, by simp [WFValue], p1⟩
  again x c hx h := by
    match x, hx, h with
    | none, _, h =>
      simp only [ModuleField.load] at h
      match hd : f.default, h with
      | .direct v, h => cases h; exact ⟨.leaf v, by simp [ModuleField.load, hf.direct_default v hd], rfl⟩
      | .cls m k, h =>
        cases hr : k.norm f.kwargs with
        | error e => simp only [hr] at h; cases h
        | ok r =>
        simp only [hr] at h
        cases h
        have hl := hf.classes m k (hf.default m k hd)
        obtain ⟨p1, p2⟩ := hl.proper _ _ hf.kwargs hr
        exact instance_again f hf k m (hf.default m k hd) _ r _ hf.kwargs hr (keeps_absorbed (hl.keeps _ _ hf.kwargs hr)) (wf_instance k p1 p2) rfl
    | some (.leaf v), _, h =>
      simp only [ModuleField.load] at h
      split at h <;> cases h
      rename_i w hw
      exact ⟨.leaf w, by simp [ModuleField.load, hf.direct v w hw], rfl⟩
    | some (.dict u), hx, h =>
      obtain ⟨m, k, r, h1, h2, h3, rfl⟩ := (loadDict_ok f u c).mp h
      have hwe := wf_erase moduleKey u (hx _ rfl)
      have hwm := wf_merge f.kwargs _ hwe hf.kwargs
      have hl := hf.classes m k h2
      obtain ⟨p1, p2⟩ := hl.proper _ _ hwm h3
      exact instance_again f hf k m h2 _ r _ hwm h3 (absorbed_trans (absorbed_left _ _ hwe) (hl.keeps _ _ hwm h3)) (wf_instance k p1 p2) rfl

/-- C124: which implementation a section of a `module_config` field chooses: the named one, or the default; without a name and a default class loading fails. -/
theorem c124_choice (f : ModuleField V) (u : Entries V) : (∀ m, u.lookup moduleKey = some (.leaf m) → ∀ c, f.load (some (.dict u)) = .ok c → ∃ k, f.resolve m = .ok k ∧ Cfg.see c [moduleKey] = some (some k.name)) ∧
    (u.lookup moduleKey = none → (∀ m k, f.default = .cls m k → f.resolve m = .ok k → ∀ c, f.load (some (.dict u)) = .ok c → Cfg.see c [moduleKey] = some (some k.name)) ∧
      (∀ v, f.default = .direct v → ∀ c, f.load (some (.dict u)) ≠ .ok c)) := by
  refine ⟨fun m hm c hc => ?_, fun hn => ⟨fun m k hd hk c hc => ?_, fun v hd c hc => ?_⟩⟩
  · obtain ⟨m', k, r, h1, h2, h3, rfl⟩ := (loadDict_ok f u c).mp hc
    rw [hm] at h1
    rcases h1 with h1 | ⟨h1, _⟩
    · cases h1; exact ⟨k, h2, by rw [at_instance_module, see_leaf_nil]⟩
    · cases h1
  · obtain ⟨m', k', r, h1, h2, h3, rfl⟩ := (loadDict_ok f u c).mp hc
    rw [hn] at h1
    rcases h1 with h1 | ⟨_, h1⟩
    · cases h1
    · simp only [ModuleField.defaultModule, hd, Option.some.injEq] at h1
      subst h1
      rw [hk] at h2
      cases h2
      rw [at_instance_module, see_leaf_nil]
  · obtain ⟨m', k', r, h1, h2, h3, rfl⟩ := (loadDict_ok f u c).mp hc
    rw [hn] at h1
    rcases h1 with h1 | ⟨_, h1⟩
    · cases h1
    · simp [ModuleField.defaultModule, hd] at h1

/-- C124: the options an implementation is loaded with: what the section says, then the keyword arguments of the field; the key `module` is not among them. -/
theorem c124_options (f : ModuleField V) (hk : f.kwargs.lookup moduleKey = none) (u : Entries V) (hu : WF u) (c : Cfg V) (h : f.load (some (.dict u)) = .ok c) :
    ∃ m k d r, f.resolve m = .ok k ∧ k.norm d = .ok r ∧ (∀ j q, j ≠ moduleKey → Cfg.see c (j :: q) = at_ r (j :: q)) ∧ d.lookup moduleKey = none ∧
      ∀ j q, j ≠ moduleKey → (∀ x, at_ u (j :: q) = some x → at_ d (j :: q) = some x) ∧ (Hidden (at_ u) (j :: q) → at_ d (j :: q) = none) ∧
        (at_ u (j :: q) = none → ¬ Hidden (at_ u) (j :: q) → at_ d (j :: q) = at_ f.kwargs (j :: q)) := by
  obtain ⟨m, k, r, h1, h2, h3, rfl⟩ := (loadDict_ok f u c).mp h
  have hwe := wf_erase moduleKey u hu
  refine ⟨m, k, _, r, h2, h3, fun j q hj => at_instance_other k r j hj q, ?_, fun j q hj => ?_⟩
  · show (mergeInto _ _).lookup _ = none
    rw [lookup_merge moduleKey _ _ hwe, lookup_erase, if_pos rfl]
    exact hk
  · have e : ∀ q, at_ (u.erase moduleKey) (j :: q) = at_ u (j :: q) := fun q => by rw [at_erase, if_neg (Ne.symm hj)]
    have eh : Hidden (at_ (u.erase moduleKey)) (j :: q) ↔ Hidden (at_ u) (j :: q) := by
      constructor
      all_goals
        rintro ⟨a, b, v, hab, hb, hv⟩
        cases a with
        | nil => rw [at_nil] at hv; cases hv
        | cons j' a =>
          have : j = j' := (List.cons.inj hab).1
          subst this
          exact ⟨j :: a, b, v, hab, hb, by first | rw [e] at hv; exact hv | rw [e]; exact hv⟩
    have := at_merge (j :: q) f.kwargs _ hwe
    rw [e, eh] at this
    exact this

/-- C124: a value given directly is converted, whatever the default. -/
theorem c124_direct (f : ModuleField V) (v : V) (c : Cfg V) : f.load (some (.leaf v)) = .ok c ↔ ∃ w, f.direct v = .ok w ∧ c = .leaf w := by
  simp only [ModuleField.load]
  cases h : f.direct v with
  | error e => simp
  | ok w => simp [eq_comm]

/-- C124: an empty section is the same as no section, if the default is a class. -/
theorem c124_empty_section (f : ModuleField V) (m : V) (k : Cls V) (hd : f.default = .cls m k) (hk : f.resolve m = .ok k) : f.load (some (.dict .nil)) = f.load none := by
  simp only [ModuleField.load, ModuleField.loadDict, ModuleField.defaultModule, Entries.lookup, Entries.erase, merge_nil, hd, hk]
  cases k.norm f.kwargs <;> rfl

/-! ### Examples -/

/-- A number field with a default. -/
def num (k : Str) (default : Nat) : Field Nat := ⟨k, fun x => match x with
  | none => .ok (.leaf default)
  | some (.leaf v) => .ok (.leaf v)
  | some (.dict _) => .error .serde⟩

theorem num_lawful (k : Str) (default : Nat) : LawfulField (num k default).load where
  order x x' c hx hx' hp h := by
    match x, x', hp, h with
    | none, none, _, h => exact ⟨c, h, rfl⟩
    | none, some c', hp, _ => exact absurd (congrFun hp []).symm (see_ne_none c')
    | some c', none, hp, _ => exact absurd (congrFun hp []) (see_ne_none c')
    | some (.leaf v), some y, hp, h =>
      have : y = .leaf v := leaf_of_see ((congrFun hp []).symm.trans (see_leaf_nil v))
      subst this
      exact ⟨c, h, rfl⟩
    | some (.dict _), some _, _, h => cases h
  keeps x c hx h := by
    match x, h with
    | none, _ => exact fun p => ⟨(nomatch ·), fun _ h => nomatch h⟩
    | some (.leaf v), h => cases h; exact keeps_refl _
    | some (.dict _), h => cases h
  proper x c hx h := by
    match x, h with
    | none, h => cases h; simp [WFValue]
    | some (.leaf v), h => cases h; simp [WFValue]
    | some (.dict _), h => cases h
  again x c hx h := by
    match x, h with
    | none, h => cases h; exact ⟨_, rfl, rfl⟩
    | some (.leaf v), h => cases h; exact ⟨_, rfl, rfl⟩
    | some (.dict _), h => cases h

/-- A schedule with a rate and a delay. -/
def standard : Cls Nat := ⟨100, record [num (key 'r') 5, num (key 'd') 8]⟩
/-- Another schedule, with a rate only. -/
def constant : Cls Nat := ⟨101, record [num (key 'r') 1]⟩

theorem standard_lawful : LawfulClass standard.norm := c124_record_lawful _ (by simp [num, key]) (by simp [num, key, moduleKey]) (by
  intro f hf
  simp only [List.mem_cons, List.not_mem_nil, or_false] at hf
  rcases hf with rfl | rfl <;> exact num_lawful _ _)

theorem constant_lawful : LawfulClass constant.norm := c124_record_lawful _ (by simp [num]) (by simp [num, key, moduleKey]) (by
  intro f hf
  simp only [List.mem_cons, List.not_mem_nil, or_false] at hf
  subst hf; exact num_lawful _ _)

/-- Module 1 and module 100 are the first schedule, 2 and 101 the second. -/
def schedules : Nat → Except Err (Cls Nat)
  | 1 => .ok standard
  | 100 => .ok standard
  | 2 => .ok constant
  | 101 => .ok constant
  | _ => .error .serde

theorem schedules_ok (m : Nat) (c : Cls Nat) (h : schedules m = .ok c) : c = standard ∨ c = constant := by
  unfold schedules at h
  split at h <;> cases h <;> simp

/-- A learning rate, by default the first schedule with rate 7. -/
def learningRate : ModuleField Nat := ⟨.cls 100 standard, .cons (key 'r') (.leaf 7) .nil, .ok, schedules⟩

theorem learningRate_lawful : LawfulModuleField learningRate where
  classes m c h := by rcases schedules_ok m c h with rfl | rfl; exacts [standard_lawful, constant_lawful]
  names m c h := by rcases schedules_ok m c h with rfl | rfl <;> rfl
  default m c h := by cases h; rfl
  direct v w h := by cases h; rfl
  direct_default v h := by cases h
  kwargs := by simp [learningRate, WF, WFValue, Entries.keys]

/-- An optimizer with a learning rate and a number of steps: a lawful class, so the theorems on replay apply to it. -/
example : LawfulClass (record [⟨key 'l', learningRate.load⟩, num (key 'n') 3]) := c124_record_lawful _ (by simp [num, key]) (by simp [num, key, moduleKey]) (by
  intro f hf
  simp only [List.mem_cons, List.not_mem_nil, or_false] at hf
  rcases hf with rfl | rfl
  · exact c124_module_field_lawful _ learningRate_lawful
  · exact num_lawful _ _)

/-- The section `{module: 2, r: 4}` gives the second schedule with rate 4, `{d: 9}` the first with rate 7 and delay 9. -/
example : learningRate.load (some (.dict (.cons moduleKey (.leaf 2) (.cons (key 'r') (.leaf 4) .nil)))) = .ok (dumpInstance constant (.cons (key 'r') (.leaf 4) .nil)) ∧
    learningRate.load (some (.dict (.cons (key 'd') (.leaf 9) .nil))) = .ok (dumpInstance standard (.cons (key 'r') (.leaf 7) (.cons (key 'd') (.leaf 9) .nil))) := by
  constructor <;>
  simp [learningRate, ModuleField.load, ModuleField.loadDict, Entries.lookup, moduleKey, schedules, Entries.erase, key, deepMerge, mergeInto, mergeValue, Entries.set, constant, standard, record,
    Entries.keys, num, loadAll, ModuleField.defaultModule]

/-- C124, why dumped names must be found: a class from a Python file dumps itself under a generated module name (module_resolver.py:24-35), which nothing
else finds; what was loaded and dumped cannot be loaded. -/
theorem c124_file_module_not_reloadable : ∃ (f : ModuleField Nat) (u : Entries Nat) (c : Cfg Nat), (∀ m k, f.resolve m = .ok k → LawfulClass k.norm) ∧
    f.load (some (.dict u)) = .ok c ∧ ∀ c', f.load (some c) ≠ .ok c' := by
  refine ⟨⟨.direct 0, .nil, .ok, fun m => if m = 1 then .ok ⟨777, constant.norm⟩ else .error .serde⟩, .cons moduleKey (.leaf 1) .nil,
    dumpInstance ⟨777, constant.norm⟩ (.cons (key 'r') (.leaf 1) .nil), ?_, ?_, ?_⟩
  · intro m k h
    simp only at h
    split_ifs at h
    cases h
    exact constant_lawful
  · simp [ModuleField.load, ModuleField.loadDict, Entries.lookup, moduleKey, Entries.erase, key, deepMerge, mergeInto, constant, record, Entries.keys, num, loadAll]
  · intro c' h
    simp [ModuleField.load, ModuleField.loadDict, dumpInstance, Entries.lookup, moduleKey] at h

/-- C124: keyword arguments meant for the default class are also given to another class that is chosen, which refuses those it does not have. -/
theorem c124_kwargs_reach_other_class : ∃ f : ModuleField Nat, LawfulModuleField f ∧ (∃ c, f.load none = .ok c) ∧ f.resolve 2 = .ok constant ∧ (∃ r, constant.norm .nil = .ok r) ∧
    ∀ c, f.load (some (.dict (.cons moduleKey (.leaf 2) .nil))) ≠ .ok c := by
  refine ⟨{ learningRate with kwargs := .cons (key 'd') (.leaf 2) .nil }, ⟨learningRate_lawful.classes, learningRate_lawful.names, learningRate_lawful.default, learningRate_lawful.direct,
    learningRate_lawful.direct_default, by simp [WF, WFValue, Entries.keys]⟩, ?_, rfl, ⟨_, rfl⟩, ?_⟩
  · exact ⟨dumpInstance standard (.cons (key 'r') (.leaf 5) (.cons (key 'd') (.leaf 2) .nil)), by simp [ModuleField.load, learningRate, standard, record, Entries.keys, num, loadAll, Entries.lookup, key]⟩
  · intro c h
    simp [learningRate, ModuleField.load, ModuleField.loadDict, Entries.lookup, moduleKey, schedules, Entries.erase, key, deepMerge, mergeInto, mergeValue, Entries.set, constant, record, Entries.keys, num] at h

/-- C124: when the default of a section is an object, choosing another class for one of its fields keeps the options of the class of the object, which the
other class refuses, although it could be loaded without them. -/
theorem c124_instance_options_reach_other_class : ∃ (norm : Entries Nat → Except Err (Entries Nat)) (base user : Entries Nat), LawfulClass norm ∧ norm .nil = .ok base ∧
    (∃ c, (Read.dataclass [key 'o'] .nil norm).act (.cons (key 'o') (.dict user) .nil) = .ok c) ∧ ∀ c, (Read.dataclass [key 'o'] base norm).act (.cons (key 'o') (.dict user) .nil) ≠ .ok c := by
  refine ⟨record [⟨key 'l', ({ learningRate with kwargs := .nil } : ModuleField Nat).load⟩],
    .cons (key 'l') (dumpInstance standard (.cons (key 'r') (.leaf 5) (.cons (key 'd') (.leaf 8) .nil))) .nil, .cons (key 'l') (.dict (.cons moduleKey (.leaf 2) .nil)) .nil, ?_, ?_, ?_, ?_⟩
  · refine c124_record_lawful _ (by simp) (by simp [key, moduleKey]) ?_
    intro f hf
    simp only [List.mem_cons, List.not_mem_nil, or_false] at hf
    subst hf
    exact c124_module_field_lawful { learningRate with kwargs := .nil } ⟨learningRate_lawful.classes, learningRate_lawful.names, learningRate_lawful.default, learningRate_lawful.direct, learningRate_lawful.direct_default, trivial⟩
  · simp [record, Entries.keys, loadAll, ModuleField.load, learningRate, standard, num, Entries.lookup]
  · exact ⟨.dict (.cons (key 'l') (dumpInstance constant (.cons (key 'r') (.leaf 1) .nil)) .nil), by
      simp [Read.act, getPath, sectionData, Entries.lookup, Entries.erase, key, deepMerge, mergeInto, mergeValue, Entries.set, record, Entries.keys, loadAll, ModuleField.load, ModuleField.loadDict, moduleKey,
        learningRate, schedules, constant, num]⟩
  · intro c h
    simp [Read.act, getPath, sectionData, Entries.lookup, Entries.erase, key, deepMerge, mergeInto, mergeValue, Entries.set, record, Entries.keys, loadAll, ModuleField.load, ModuleField.loadDict, moduleKey,
      learningRate, schedules, constant, num, dumpInstance] at h

end Jaqmc.ConfigClass.Props
