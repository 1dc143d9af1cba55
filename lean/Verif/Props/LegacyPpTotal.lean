import Verif.Props.LegacyPpEcp
/-!
C115: which atom of the legacy package is treated how, and the total energy.
-/
namespace Jaqmc.LegacyPp.Props
open Jaqmc.LegacyPp Jaqmc.Geometry
open Jaqmc.Ecp (PyscfEcp)
open Jaqmc.MolEnergy (flatten unflatten)
open Jaqmc.MolEnergy.Spec (coulomb Apart)
open Jaqmc.Ph.Spec (radius derivativePart laplacian)
open Jaqmc.Laplacian.Spec (IsLaplacian)
open scoped Topology Classical

variable {n A : ℕ}

/-! ### Which element is chosen -/

/-- The elements treated by a pseudo-Hamiltonian alone: those listed, by default all with data. -/
def PurePh (elements : Option (List String)) (s : String) : Prop :=
  match elements with
  | none => s ∈ ["Cr", "Mn", "Fe", "Co", "Ni", "Cu", "Zn", "S"]
  | some l => s ∈ l

/-- The elements treated by a pseudo-Hamiltonian and an effective core potential: those listed, by default none. -/
def HybridPh (elements : Option (List String)) (s : String) : Prop := ∃ l, elements = some l ∧ s ∈ l

theorem lookup_append {α β : Type} [BEq α] (l l' : List (α × β)) (s : α) : (l ++ l').lookup s = (l.lookup s).or (l'.lookup s) := by
  induction l with
  | nil => simp
  | cons a l ih =>
    rw [List.cons_append, List.lookup_cons, List.lookup_cons]
    split <;> simp [ih]

theorem genInfo_spec (want : String → Prop) (load : String → Option Radial) (l : List (String × Vec 3)) (d : Info) (hnd : (d.2.map (·.1)).Nodup) :
    (genInfo want load l d = none ↔ ∃ a ∈ l, want a.1 ∧ d.2.lookup a.1 = none ∧ load a.1 = none) ∧
    ∀ i, genInfo want load l d = some i → i.1 = d.1 ++ l.filter (fun a => want a.1) ∧ (i.2.map (·.1)).Nodup ∧
      ∀ s, i.2.lookup s = (d.2.lookup s).or (if ∃ a ∈ l, a.1 = s ∧ want s then load s else none) := by
  induction l generalizing d with
  | nil =>
    unfold genInfo
    exact ⟨by simp, fun i hi => by obtain rfl := Option.some.inj hi; simp [hnd]⟩
  | cons a l ih =>
    obtain ⟨t, x⟩ := a
    unfold genInfo
    by_cases hw : want t
    · rw [if_pos hw]
      by_cases hd : (d.2.lookup t).isSome
      · rw [if_pos hd]
        obtain ⟨h1, h2⟩ := ih (d.1 ++ [(t, x)], d.2) hnd
        refine ⟨h1.trans ?_, fun i hi => ?_⟩
        · constructor
          · rintro ⟨a, ha, h⟩
            exact ⟨a, by simp [ha], h⟩
          · rintro ⟨a, ha, h⟩
            rcases List.mem_cons.mp ha with rfl | ha
            · rw [h.2.1] at hd; simp at hd
            · exact ⟨a, ha, h⟩
        · obtain ⟨e1, e2, e3⟩ := h2 i hi
          refine ⟨by rw [e1, List.filter_cons_of_pos (by simpa using hw)]; simp, e2, fun s => ?_⟩
          rw [e3 s]
          by_cases hs : s = t
          · subst hs
            obtain ⟨v, hv⟩ := Option.isSome_iff_exists.mp hd
            simp [hv]
          · congr 1
            refine if_congr ?_ rfl rfl
            constructor
            · rintro ⟨a, ha, h⟩; exact ⟨a, by simp [ha], h⟩
            · rintro ⟨a, ha, h⟩
              rcases List.mem_cons.mp ha with rfl | ha
              · exact absurd h.1.symm hs
              · exact ⟨a, ha, h⟩
      · rw [if_neg hd]
        rw [Option.not_isSome_iff_eq_none] at hd
        cases hl : load t with
        | none =>
          dsimp only
          exact ⟨by simp only [true_iff]; exact ⟨(t, x), by simp, hw, hd, hl⟩, fun i hi => by simp at hi⟩
        | some v =>
          dsimp only
          have hnd' : ((d.2 ++ [(t, v)]).map (·.1)).Nodup := by
            rw [List.map_append, List.nodup_append]
            refine ⟨hnd, by simp, ?_⟩
            rintro a ha b hb rfl
            rw [List.mem_map] at ha
            obtain ⟨p, hp, rfl⟩ := ha
            simp only [List.map_cons, List.map_nil, List.mem_singleton] at hb
            rw [List.lookup_eq_none_iff] at hd
            simpa [hb] using hd p hp
          obtain ⟨h1, h2⟩ := ih (d.1 ++ [(t, x)], d.2 ++ [(t, v)]) hnd'
          have hlk : ∀ s, (d.2 ++ [(t, v)]).lookup s = (d.2.lookup s).or (if s = t then some v else none) := by
            intro s
            rw [lookup_append, List.lookup_cons]
            by_cases hs : s = t
            · simp [hs]
            · rw [if_neg hs, show (s == t) = false by simpa using hs]; rfl
          refine ⟨h1.trans ?_, fun i hi => ?_⟩
          · constructor
            · rintro ⟨a, ha, hw', h3, h4⟩
              rw [hlk, Option.or_eq_none_iff] at h3
              exact ⟨a, by simp [ha], hw', h3.1, h4⟩
            · rintro ⟨a, ha, hw', h3, h4⟩
              rcases List.mem_cons.mp ha with rfl | ha
              · rw [hl] at h4; simp at h4
              · refine ⟨a, ha, hw', ?_, h4⟩
                rw [hlk, h3, if_neg]
                · rfl
                · intro hs; rw [hs, hl] at h4; simp at h4
          · obtain ⟨e1, e2, e3⟩ := h2 i hi
            refine ⟨by rw [e1, List.filter_cons_of_pos (by simpa using hw)]; simp, e2, fun s => ?_⟩
            rw [e3 s]
            change ((d.2 ++ [(t, v)]).lookup s).or _ = _
            rw [hlk]
            by_cases hs : s = t
            · subst hs
              rw [hd, if_pos rfl, if_pos (c := ∃ a ∈ (s, x) :: l, a.1 = s ∧ want s) ⟨(s, x), by simp, rfl, hw⟩, hl]
              rfl
            · rw [if_neg hs, Option.or_none]
              congr 1
              refine if_congr ?_ rfl rfl
              constructor
              · rintro ⟨a, ha, h⟩; exact ⟨a, by simp [ha], h⟩
              · rintro ⟨a, ha, h⟩
                rcases List.mem_cons.mp ha with rfl | ha
                · exact absurd h.1.symm hs
                · exact ⟨a, ha, h⟩
    · rw [if_neg hw]
      obtain ⟨h1, h2⟩ := ih d hnd
      refine ⟨h1.trans ?_, fun i hi => ?_⟩
      · constructor
        · rintro ⟨a, ha, h⟩
          exact ⟨a, by simp [ha], h⟩
        · rintro ⟨a, ha, h⟩
          rcases List.mem_cons.mp ha with rfl | ha
          · exact absurd h.1 hw
          · exact ⟨a, ha, h⟩
      · obtain ⟨e1, e2, e3⟩ := h2 i hi
        refine ⟨by rw [e1, List.filter_cons_of_neg (by simpa using hw)], e2, fun s => ?_⟩
        rw [e3 s]
        congr 1
        refine if_congr ?_ rfl rfl
        constructor
        · rintro ⟨a, ha, h⟩; exact ⟨a, by simp [ha], h⟩
        · rintro ⟨a, ha, h⟩
          rcases List.mem_cons.mp ha with rfl | ha
          · exact absurd (by have := h.2; rw [← h.1] at this; exact this) hw
          · exact ⟨a, ha, h⟩

/-- C115 (data): the atoms of the chosen elements, in the order of the molecule, with the data of exactly those elements; a chosen element of
the molecule without data is refused. -/
theorem c115_info (atoms : List (String × Vec 3)) (elements : Option (List String)) (load : String → Option Radial) :
    (genPhInfo atoms elements load = none ↔ ∃ a ∈ atoms, PurePh elements a.1 ∧ load a.1 = none) ∧
    (∀ i, genPhInfo atoms elements load = some i → i.1 = atoms.filter (fun a => PurePh elements a.1) ∧ (i.2.map (·.1)).Nodup ∧
      ∀ s, i.2.lookup s = if (∃ a ∈ atoms, a.1 = s) ∧ PurePh elements s then load s else none) ∧
    (genHphInfo atoms elements load = none ↔ ∃ a ∈ atoms, HybridPh elements a.1 ∧ load a.1 = none) ∧
    (∀ i, genHphInfo atoms elements load = some i → i.1 = atoms.filter (fun a => HybridPh elements a.1) ∧ (i.2.map (·.1)).Nodup ∧
      ∀ s, i.2.lookup s = if (∃ a ∈ atoms, a.1 = s) ∧ HybridPh elements s then load s else none) := by
  have e1 : genPhInfo atoms elements load = genInfo (PurePh elements) load atoms ([], []) := by
    cases elements <;> rfl
  have e2 : genHphInfo atoms elements load = genInfo (HybridPh elements) load atoms ([], []) := by
    unfold genHphInfo
    congr 1
    funext s
    cases elements <;> simp [HybridPh]
  have hc : ∀ (W : String → Prop) (s : String), (∃ a ∈ atoms, a.1 = s ∧ W s) ↔ ((∃ a ∈ atoms, a.1 = s) ∧ W s) := by
    intro W s
    constructor
    · rintro ⟨a, ha, h, hw⟩; exact ⟨⟨a, ha, h⟩, hw⟩
    · rintro ⟨⟨a, ha, h⟩, hw⟩; exact ⟨a, ha, h, hw⟩
  rw [e1, e2]
  obtain ⟨h1, h2⟩ := genInfo_spec (PurePh elements) load atoms ([], []) (by simp)
  obtain ⟨h3, h4⟩ := genInfo_spec (HybridPh elements) load atoms ([], []) (by simp)
  refine ⟨h1.trans (by simp), fun i hi => ?_, h3.trans (by simp), fun i hi => ?_⟩
  · obtain ⟨e1, e2, e3⟩ := h2 i hi
    exact ⟨by simpa using e1, e2, fun s => by rw [e3 s]; simp only [List.lookup_nil, Option.none_or]; exact if_congr (hc _ s) rfl rfl⟩
  · obtain ⟨e1, e2, e3⟩ := h4 i hi
    exact ⟨by simpa using e1, e2, fun s => by rw [e3 s]; simp only [List.lookup_nil, Option.none_or]; exact if_congr (hc _ s) rfl rfl⟩

/-! ### Merging -/

theorem lookup_fold (h d : List (String × Radial)) (hnd : (h.map (·.1)).Nodup) (s : String) :
    (h.foldl (fun d e => Stats.Dict.set d e.1 e.2) d).lookup s = (h.lookup s).or (d.lookup s) := by
  induction h generalizing d with
  | nil => simp
  | cons e h ih =>
    rw [List.map_cons, List.nodup_cons] at hnd
    rw [List.foldl_cons, ih _ hnd.2, List.lookup_cons]
    by_cases hs : s = e.1
    · subst hs
      have : h.lookup e.1 = none := by
        rw [List.lookup_eq_none_iff]
        intro p hp
        simpa using fun he => hnd.1 (List.mem_map.mpr ⟨p, hp, he.symm⟩)
      rw [this, beq_self_eq_true, Option.none_or]
      exact Stats.Props.lookup_set_self _ _ _
    · rw [show (s == e.1) = false by simpa using hs, Stats.Props.lookup_set_ne _ _ hs]

theorem mem_keys (l : List (String × Radial)) (s : String) : s ∈ l.map (·.1) ↔ (l.lookup s).isSome := by
  rw [Option.isSome_iff_ne_none, Ne, List.lookup_eq_none_iff, List.mem_map]
  constructor
  · rintro ⟨p, hp, rfl⟩ h
    simpa using h p hp
  · intro h
    push Not at h
    obtain ⟨p, hp, hs⟩ := h
    exact ⟨p, hp, by simpa using (by simpa using hs : s = p.1).symm⟩

/-- What a run is given: the choice of elements and the data. -/
structure Choice where
  ph : Option (List String)
  hybrid : Option (List String)
  load : String → Option Radial
  loadHybrid : String → Option Radial

/-- The configuration made from the choice. -/
def Made (c : Config) (ch : Choice) : Prop :=
  (∃ p, genPhInfo c.atoms ch.ph ch.load = some p ∧ c.phInfo = some p) ∧
  ∃ h, genHphInfo c.atoms ch.hybrid ch.loadHybrid = some h ∧ c.hphInfo = some h

/-- The radial functions of a pseudo-Hamiltonian atom. -/
noncomputable def Choice.radial (ch : Choice) (s : String) : Option Radial := if HybridPh ch.hybrid s then ch.loadHybrid s else ch.load s

/-- The pseudo-Hamiltonian atoms of the molecule: first those treated so alone, then the hybrid ones. -/
noncomputable def phList (c : Config) (ch : Choice) : List (String × Vec 3) :=
  c.atoms.filter (fun a => PurePh ch.ph a.1) ++ c.atoms.filter (fun a => HybridPh ch.hybrid a.1)

theorem mapM_isSome {α β : Type} (f : α → Option β) (l : List α) (h : ∀ a ∈ l, (f a).isSome) : (l.mapM f).isSome := by
  induction l with
  | nil => simp
  | cons a l ih =>
    obtain ⟨b, hb⟩ := Option.isSome_iff_exists.mp (h a (by simp))
    obtain ⟨bs, hbs⟩ := Option.isSome_iff_exists.mp (ih fun a ha => h a (by simp [ha]))
    simp [List.mapM_cons, hb, hbs]

theorem mapM_congr' {α β : Type} (f g : α → Option β) (l : List α) (h : ∀ a ∈ l, f a = g a) : l.mapM f = l.mapM g := by
  induction l with
  | nil => rfl
  | cons a l ih => rw [List.mapM_cons, List.mapM_cons, h a (by simp), ih fun a ha => h a (by simp [ha])]

/-- C115 (routing): the atoms treated by an effective core potential are exactly those whose element has one and is not treated by a
pseudo-Hamiltonian alone; the pseudo-Hamiltonian acts on the atoms of the two lists, each with the data of its element, and is
absent exactly when the molecule has none. -/
theorem c115_routing (c : Config) (ch : Choice) (h : Made c ch) :
    (ecpAtoms c.ecp c.atoms c.ecpElements).Perm
      (c.atoms.filterMap fun a => if PurePh ch.ph a.1 then none else (c.ecp.lookup a.1).map fun p => (a.2, p)) ∧
    (c.ecpElements = [] ↔ ∀ a ∈ c.atoms, (c.ecp.lookup a.1).isSome → PurePh ch.ph a.1) ∧
    (∃ i l, mergeInfo c.phInfo c.hphInfo = some i ∧ phAtoms i = some l ∧
      (phList c ch).mapM (fun a => (ch.radial a.1).map fun v => (a.2, v)) = some l) ∧
    (keys c.phInfo ++ keys c.hphInfo = [] ↔ ∀ a ∈ c.atoms, ¬ PurePh ch.ph a.1 ∧ ¬ HybridPh ch.hybrid a.1) := by
  obtain ⟨⟨p, hp, hcp⟩, q, hq, hcq⟩ := h
  obtain ⟨hn1, h1, -, -⟩ := c115_info c.atoms ch.ph ch.load
  obtain ⟨-, -, hn2, h2⟩ := c115_info c.atoms ch.hybrid ch.loadHybrid
  obtain ⟨a1, a2, a3⟩ := h1 p hp
  obtain ⟨b1, b2, b3⟩ := h2 q hq
  have hl1 : ∀ a ∈ c.atoms, PurePh ch.ph a.1 → (ch.load a.1).isSome := by
    intro a ha hw
    rw [Option.isSome_iff_ne_none]
    intro hl
    rw [hn1.mpr ⟨a, ha, hw, hl⟩] at hp
    simp at hp
  have hl2 : ∀ a ∈ c.atoms, HybridPh ch.hybrid a.1 → (ch.loadHybrid a.1).isSome := by
    intro a ha hw
    rw [Option.isSome_iff_ne_none]
    intro hl
    rw [hn2.mpr ⟨a, ha, hw, hl⟩] at hq
    simp at hq
  have hk1 : ∀ a ∈ c.atoms, (a.1 ∈ keys c.phInfo ↔ PurePh ch.ph a.1) := by
    intro a ha
    rw [hcp]
    unfold keys
    dsimp only
    rw [mem_keys, a3]
    constructor
    · intro h; split_ifs at h with hh
      · exact hh.2
      · simp at h
    · intro h; rw [if_pos ⟨⟨a, ha, rfl⟩, h⟩]; exact hl1 a ha h
  have hmem : ∀ s, s ∈ c.ecpElements ↔ ∃ a ∈ c.atoms, a.1 = s ∧ (c.ecp.lookup s).isSome ∧ ¬ PurePh ch.ph s := by
    intro s
    unfold Config.ecpElements
    rw [List.mem_map]
    constructor
    · rintro ⟨a, ha, rfl⟩
      rw [List.mem_filter] at ha
      obtain ⟨ha, hb⟩ := ha
      simp only [Bool.and_eq_true, Bool.not_eq_true', List.contains_eq_mem, decide_eq_false_iff_not] at hb
      exact ⟨a, ha, rfl, hb.1, fun hw => hb.2 ((hk1 a ha).mpr hw)⟩
    · rintro ⟨a, ha, rfl, hb, hw⟩
      refine ⟨a, List.mem_filter.mpr ⟨ha, ?_⟩, rfl⟩
      simp only [Bool.and_eq_true, Bool.not_eq_true', List.contains_eq_mem, decide_eq_false_iff_not]
      exact ⟨hb, fun hk => hw ((hk1 a ha).mp hk)⟩
  refine ⟨?_, ?_, ?_, ?_⟩
  · refine (c114_atoms _ _ _).trans (List.Perm.of_eq (List.filterMap_congr fun a ha => ?_))
    by_cases hw : PurePh ch.ph a.1
    · rw [if_pos hw, if_neg]
      rw [hmem]
      rintro ⟨-, -, -, -, h⟩
      exact h hw
    · rw [if_neg hw]
      cases hl : c.ecp.lookup a.1 with
      | none => simp
      | some v => rw [if_pos ((hmem _).mpr ⟨a, ha, rfl, by simp [hl], hw⟩)]
  · constructor
    · intro h a ha hs
      by_contra hw
      have := (hmem a.1).mpr ⟨a, ha, rfl, hs, hw⟩
      rw [h] at this
      simp at this
    · intro h
      rw [List.eq_nil_iff_forall_not_mem]
      intro s hs
      obtain ⟨a, ha, rfl, h2, h3⟩ := (hmem s).mp hs
      exact h3 (h a ha h2)
  · have hlk : ∀ a ∈ phList c ch, (q.2.foldl (fun d e => Stats.Dict.set d e.1 e.2) p.2).lookup a.1 = ch.radial a.1 := by
      intro a ha
      rw [lookup_fold _ _ b2, b3, a3]
      unfold phList at ha
      rw [List.mem_append, List.mem_filter, List.mem_filter] at ha
      have haa : a ∈ c.atoms := by rcases ha with ha | ha <;> exact ha.1
      unfold Choice.radial
      by_cases hH : HybridPh ch.hybrid a.1
      · rw [if_pos ⟨⟨a, haa, rfl⟩, hH⟩, if_pos hH]
        obtain ⟨v, hv⟩ := Option.isSome_iff_exists.mp (hl2 a haa hH)
        rw [hv]
        rfl
      · rw [if_neg (fun h => hH h.2), if_neg hH, Option.none_or, if_pos]
        rcases ha with ha | ha
        · exact ⟨⟨a, haa, rfl⟩, by simpa using ha.2⟩
        · exact absurd (by simpa using ha.2) hH
    have hs : ((phList c ch).mapM (fun a => (ch.radial a.1).map fun v => (a.2, v))).isSome := by
      refine mapM_isSome _ _ fun a ha => ?_
      rw [Option.isSome_map]
      unfold phList at ha
      rw [List.mem_append, List.mem_filter, List.mem_filter] at ha
      unfold Choice.radial
      have haa : a ∈ c.atoms := by rcases ha with ha | ha <;> exact ha.1
      by_cases hH : HybridPh ch.hybrid a.1
      · rw [if_pos hH]; exact hl2 a haa hH
      · rw [if_neg hH]
        rcases ha with ha | ha
        · exact hl1 a haa (by simpa using ha.2)
        · exact absurd (by simpa using ha.2) hH
    obtain ⟨l, hl⟩ := Option.isSome_iff_exists.mp hs
    refine ⟨_, l, by rw [hcp, hcq]; rfl, ?_, hl⟩
    unfold phAtoms
    dsimp only
    rw [a1, b1, ← hl]
    exact mapM_congr' _ _ _ fun a ha => by rw [hlk a ha]
  · rw [List.append_eq_nil_iff]
    have k1 : ∀ s, s ∈ keys c.phInfo ↔ (∃ a ∈ c.atoms, a.1 = s) ∧ PurePh ch.ph s := by
      intro s
      rw [hcp]
      unfold keys
      dsimp only
      rw [mem_keys, a3]
      constructor
      · intro h; split_ifs at h with hh
        · exact hh
        · simp at h
      · rintro ⟨⟨a, ha, rfl⟩, h⟩; rw [if_pos ⟨⟨a, ha, rfl⟩, h⟩]; exact hl1 a ha h
    have k2 : ∀ s, s ∈ keys c.hphInfo ↔ (∃ a ∈ c.atoms, a.1 = s) ∧ HybridPh ch.hybrid s := by
      intro s
      rw [hcq]
      unfold keys
      dsimp only
      rw [mem_keys, b3]
      constructor
      · intro h; split_ifs at h with hh
        · exact hh
        · simp at h
      · rintro ⟨⟨a, ha, rfl⟩, h⟩; rw [if_pos ⟨⟨a, ha, rfl⟩, h⟩]; exact hl2 a ha h
    rw [List.eq_nil_iff_forall_not_mem, List.eq_nil_iff_forall_not_mem]
    constructor
    · rintro ⟨h1, h2⟩ a ha
      exact ⟨fun hw => h1 a.1 ((k1 _).mpr ⟨⟨a, ha, rfl⟩, hw⟩), fun hw => h2 a.1 ((k2 _).mpr ⟨⟨a, ha, rfl⟩, hw⟩)⟩
    · intro h
      refine ⟨fun s hs => ?_, fun s hs => ?_⟩
      · obtain ⟨⟨a, ha, rfl⟩, hw⟩ := (k1 s).mp hs
        exact (h a ha).1 hw
      · obtain ⟨⟨a, ha, rfl⟩, hw⟩ := (k2 s).mp hs
        exact (h a ha).2 hw

/-- C115 (limit): an atom whose element is in both lists is in the pseudo-Hamiltonian twice, with the hybrid data both times, and has no effective
core potential. -/
theorem c115_both_limit (c : Config) (ch : Choice) (s : String) (h1 : PurePh ch.ph s) (h2 : HybridPh ch.hybrid s) :
    ((phList c ch).filter fun a => a.1 = s).length = 2 * (c.atoms.filter fun a => a.1 = s).length ∧ ch.radial s = ch.loadHybrid s ∧
    (Made c ch → s ∉ c.ecpElements) := by
  refine ⟨?_, if_pos h2, fun hm hs => ?_⟩
  · unfold phList
    rw [List.filter_append, List.length_append, List.filter_filter, List.filter_filter]
    have e1 : (c.atoms.filter fun a => decide (a.1 = s) && decide (PurePh ch.ph a.1)) = c.atoms.filter fun a => a.1 = s :=
      List.filter_congr fun a _ => by by_cases ha : a.1 = s <;> simp [ha, h1]
    have e2 : (c.atoms.filter fun a => decide (a.1 = s) && decide (HybridPh ch.hybrid a.1)) = c.atoms.filter fun a => a.1 = s :=
      List.filter_congr fun a _ => by by_cases ha : a.1 = s <;> simp [ha, h2]
    rw [e1, e2]
    omega
  · unfold Config.ecpElements at hs
    rw [List.mem_map] at hs
    obtain ⟨a, ha, rfl⟩ := hs
    rw [List.mem_filter] at ha
    obtain ⟨⟨p, hp, hcp⟩, -⟩ := hm
    obtain ⟨hn, h3, -, -⟩ := c115_info c.atoms ch.ph ch.load
    have hk : a.1 ∈ keys c.phInfo := by
      rw [hcp]
      unfold keys
      dsimp only
      rw [mem_keys, (h3 p hp).2.2, if_pos ⟨⟨a, ha.1, rfl⟩, h1⟩, Option.isSome_iff_ne_none]
      intro hl
      rw [hn.mpr ⟨a, ha.1, h1, hl⟩] at hp
      simp at hp
    have := ha.2
    simp [hk] at this

/-! ### Total energy -/

/-- The wavefunction of a walker. -/
noncomputable def Walker.psi (w : Walker n) (y : Fin n → Vec 3) : ℝ := w.sign y * Real.exp (w.f y)

theorem derivativePart_nil (ψ : (Fin n → Vec 3) → ℝ) (x : Fin n → Vec 3) (p : Fin 0 → Vec 3) (v : Fin n → Fin 0 → ℝ) :
    derivativePart p v ψ x = -(1 / 2) * laplacian ψ x := by
  unfold derivativePart
  simp

theorem sum_mapM_nil (l : List (Vec 3 × Radial)) (hl : l = []) (ψ : (Fin n → Vec 3) → ℝ) (x : Fin n → Vec 3) :
    derivativePart (fun a : Fin l.length => (l.get a).1) (fun e a => (l.get a).2.l2 (radius (x e) (l.get a).1) / radius (x e) (l.get a).1) ψ x =
      -(1 / 2) * laplacian ψ x ∧
    (∑ e, ∑ a : Fin l.length, (l.get a).2.loc (radius (x e) (l.get a).1) / radius (x e) (l.get a).1) = 0 := by
  subst hl
  exact ⟨derivativePart_nil _ _ _ _, by simp⟩

/-- C115 (total): the energy is that of the Hamiltonian of the documentation: kinetic energy and `L²` terms of the pseudo-Hamiltonian atoms, the
Coulomb energy of all particles, the local potentials of the pseudo-Hamiltonian atoms and the effective core energy (C114) of the
other atoms and the hybrid ones. -/
theorem c115_total (c : Config) (ch : Choice) (hm : Made c ch) (pos : Fin A → Vec 3) (Z : Fin A → ℝ) (w : Walker n)
    (hf : ContDiffAt ℝ 2 w.f w.x) (hs : ∀ y, w.sign y = 1 ∨ w.sign y = -1) (hc : ContinuousAt (Walker.psi w) w.x) (hap : Apart w.x pos)
    (l : List (Vec 3 × Radial)) (hl : (phList c ch).mapM (fun a => (ch.radial a.1).map fun v => (a.2, v)) = some l)
    (haway : ∀ e, ∀ a ∈ l, w.x e ≠ a.1)
    (hplain : l = [] → ((c.kinetic.forward = true → ∃ v, IsLaplacian (flatten w.x) Kinetic.eye (fun y => w.f (unflatten y)) v w.jac w.lap) ∧
      (c.kinetic.forward = false → c.kinetic.partition ≠ 0 → c.kinetic.partition ∣ n * 3)))
    (hph : l ≠ [] → c.kinetic.forward = true ∧ ∃ L v, factors w.x l = some L ∧
      IsLaplacian (0 : Fin n → Fin 3 → ℝ) (fun k : Fin n × Fin 3 => Ph.dir k.1 k.2) (fun y => w.f (Ph.shifted w.x L y)) v w.jacPh w.lapPh)
    (ecp : ℝ) (hecp0 : c.ecpElements = [] → ecp = 0)
    (hecp : c.ecpElements ≠ [] → nonLocalEnergy (fun y => (w.sign y, w.f y)) c.ecp c.atoms c.ecpElements c.quadrature c.maxCore c.nspins w.x w.R =
      some ecp) :
    ∃ E, ppEnergy c none pos Z w = some E ∧
      E * Walker.psi w w.x = derivativePart (fun a : Fin l.length => (l.get a).1)
          (fun e a => (l.get a).2.l2 (radius (w.x e) (l.get a).1) / radius (w.x e) (l.get a).1) (Walker.psi w) w.x +
        (coulomb w.x pos Z + (∑ e, ∑ a : Fin l.length, (l.get a).2.loc (radius (w.x e) (l.get a).1) / radius (w.x e) (l.get a).1) + ecp) *
          Walker.psi w w.x := by
  obtain ⟨-, -, ⟨i, l', hi, hi2, hi3⟩, hkeys⟩ := c115_routing c ch hm
  obtain rfl : l' = l := Option.some.inj (hi3.symm.trans hl)
  have hnon : (if c.ecpElements = [] then some 0
      else nonLocalEnergy (fun y => (w.sign y, w.f y)) c.ecp c.atoms c.ecpElements c.quadrature c.maxCore c.nspins w.x w.R) = some ecp := by
    split_ifs with h
    · rw [hecp0 h]
    · exact hecp h
  have hlen : l' = [] ↔ keys c.phInfo ++ keys c.hphInfo = [] := by
    rw [hkeys]
    have h1 : l'.length = (phList c ch).length := (MolEnergy.Props.mapM_get _ _ _ hl).1
    constructor
    · intro h a ha
      rw [h] at h1
      have h2 : phList c ch = [] := List.length_eq_zero_iff.mp h1.symm
      unfold phList at h2
      rw [List.append_eq_nil_iff, List.filter_eq_nil_iff, List.filter_eq_nil_iff] at h2
      exact ⟨by simpa using h2.1 a ha, by simpa using h2.2 a ha⟩
    · intro h
      have h2 : phList c ch = [] := by
        unfold phList
        rw [List.append_eq_nil_iff, List.filter_eq_nil_iff, List.filter_eq_nil_iff]
        exact ⟨fun a ha => by simpa using (h a ha).1, fun a ha => by simpa using (h a ha).2⟩
      rw [h2] at h1
      exact List.length_eq_zero_iff.mp h1
  have hpp : ∀ k, localEnergy c.kinetic (keys c.phInfo ++ keys c.hphInfo) (mergeInfo c.phInfo c.hphInfo) pos Z w = some k →
      ppEnergy c none pos Z w = some (k + ecp) := by
    intro k hk
    unfold ppEnergy
    dsimp only
    rw [hk, hnon]
  by_cases h0 : l' = []
  · obtain ⟨p1, p2⟩ := hplain h0
    obtain ⟨v, hv⟩ : ∃ v, c.kinetic.forward = true → IsLaplacian (flatten w.x) Kinetic.eye (fun y => w.f (unflatten y)) v w.jac w.lap := by
      by_cases hfw : c.kinetic.forward = true
      · obtain ⟨v, hv⟩ := p1 hfw; exact ⟨v, fun _ => hv⟩
      · exact ⟨0, fun h => absurd h hfw⟩
    obtain ⟨E, hE, h1⟩ := (c113_kinetic c.kinetic w.sign w.f w.x hf hs hc v w.jac w.lap).1 hv p2
    refine ⟨_, hpp (potential w.x pos Z + E) ?_, ?_⟩
    · unfold localEnergy
      rw [if_neg (by simpa using hlen.mp h0), hE]
      rfl
    · obtain ⟨e1, e2⟩ := sum_mapM_nil l' h0 (Walker.psi w) w.x
      rw [e1, e2, c113_potential _ _ _ hap]
      have : E * Walker.psi w w.x = -(1 / 2) * laplacian (Walker.psi w) w.x := h1
      rw [← this]
      ring
  · obtain ⟨hfw, L, v, hL, hlap⟩ := hph h0
    have hlog : Ph.Spec.LogOf w.f (Walker.psi w) w.x := Filter.Eventually.of_forall fun y => by
      unfold Walker.psi
      rw [abs_mul, abs_of_pos (Real.exp_pos _)]
      rcases hs y with h | h <;> simp [h]
    obtain ⟨E, hE, h1⟩ := c113_ph w.f (Walker.psi w) w.x hf hlog hc l' haway L hL v w.jacPh w.lapPh hlap
    refine ⟨_, hpp (potential w.x pos Z + E) ?_, ?_⟩
    · unfold localEnergy
      rw [if_pos (fun h => h0 (hlen.mpr h)), if_neg (by simp [hfw]), hi]
      dsimp only
      rw [hi2]
      dsimp only
      rw [hE]
      rfl
    · rw [c113_potential _ _ _ hap, add_mul, add_mul, h1]
      ring

theorem fold_set_append {α : Type} (l d : List (String × α)) (hd : ((d ++ l).map (·.1)).Nodup) :
    l.foldl (fun d e => Stats.Dict.set d e.1 e.2) d = d ++ l := by
  induction l generalizing d with
  | nil => simp
  | cons e l ih =>
    have hs : Stats.Dict.set d e.1 e.2 = d ++ [e] := by
      have hne : ∀ p ∈ d, p.1 ≠ e.1 := by
        intro p hp he
        rw [List.map_append, List.map_cons, List.nodup_append] at hd
        exact hd.2.2 p.1 (List.mem_map_of_mem hp) e.1 (by simp) he
      clear ih hd
      induction d with
      | nil => rfl
      | cons a d ihd =>
        unfold Stats.Dict.set
        rw [if_neg (hne a (by simp)), ihd fun p hp => hne p (by simp [hp])]
        rfl
    rw [List.foldl_cons, hs, ih _ (by simpa using hd)]
    simp

/-- C115 (absent lists): no information is the same as an information without atoms, for either kind of pseudo-Hamiltonian (the keys of a
dictionary are distinct). -/
theorem c115_absent (c : Config) (given : Option ((Fin n → Vec 3) → ℝ)) (pos : Fin A → Vec 3) (Z : Fin A → ℝ) (w : Walker n)
    (hk : (keys c.hphInfo).Nodup) :
    ppEnergy { c with phInfo := none } given pos Z w = ppEnergy { c with phInfo := some ([], []) } given pos Z w ∧
      ppEnergy { c with hphInfo := none } given pos Z w = ppEnergy { c with hphInfo := some ([], []) } given pos Z w := by
  have key : ∀ (l : List String) (i j : Option Info), (l ≠ [] → i = j) → localEnergy c.kinetic l i pos Z w = localEnergy c.kinetic l j pos Z w := by
    intro l i j h
    by_cases hl : l = []
    · subst hl; unfold localEnergy; simp
    · rw [h hl]
  constructor
  · have h1 := key (keys none ++ keys c.hphInfo) (mergeInfo none c.hphInfo) (mergeInfo (some ([], [])) c.hphInfo) (by
      intro hl
      cases hh : c.hphInfo with
      | none => rw [hh] at hl; exact absurd rfl hl
      | some h =>
        rw [hh] at hk
        unfold mergeInfo
        dsimp only
        rw [fold_set_append h.2 [] (by simpa [keys] using hk)]
        simp)
    unfold ppEnergy
    dsimp only
    rw [h1]
    rfl
  · have h1 := key (keys c.phInfo ++ keys none) (mergeInfo c.phInfo none) (mergeInfo c.phInfo (some ([], []))) (by
      intro hl
      cases hh : c.phInfo with
      | none => rw [hh] at hl; exact absurd rfl hl
      | some h => simp [mergeInfo])
    unfold ppEnergy
    dsimp only
    rw [h1]
    rfl

/-- C115 (supplied energy): a local energy function handed in is used when the molecule has no pseudo-Hamiltonian atom, and ignored when it has; a
pseudo-Hamiltonian without the forward Laplacian is refused. -/
theorem c115_given (c : Config) (ch : Choice) (hm : Made c ch) (g : (Fin n → Vec 3) → ℝ) (pos : Fin A → Vec 3) (Z : Fin A → ℝ) (w : Walker n) :
    ((∀ a ∈ c.atoms, ¬ PurePh ch.ph a.1 ∧ ¬ HybridPh ch.hybrid a.1) → c.ecpElements = [] → ppEnergy c (some g) pos Z w = some (g w.x)) ∧
    ((∃ a ∈ c.atoms, PurePh ch.ph a.1 ∨ HybridPh ch.hybrid a.1) → ppEnergy c (some g) pos Z w = ppEnergy c none pos Z w ∧
      (c.kinetic.forward = false → ppEnergy c none pos Z w = none)) := by
  obtain ⟨-, -, -, hkeys⟩ := c115_routing c ch hm
  constructor
  · intro h he
    have hk := hkeys.mpr h
    unfold ppEnergy
    dsimp only
    rw [if_pos hk, if_pos he]
    simp
  · rintro ⟨a, ha, h⟩
    have hk : ¬ keys c.phInfo ++ keys c.hphInfo = [] := fun h0 => by
      obtain ⟨h1, h2⟩ := hkeys.mp h0 a ha
      rcases h with h | h
      · exact h1 h
      · exact h2 h
    refine ⟨?_, fun hfw => ?_⟩
    · unfold ppEnergy
      dsimp only
      rw [if_neg hk]
    · unfold ppEnergy localEnergy
      dsimp only
      rw [if_pos hk, if_pos (by simp [hfw])]

/-- C115 (incremental variant): without hybrid elements it is the same energy. -/
theorem c115_optim (c : Config) (ch : Choice) (hm : Made c ch) (hno : ∀ a ∈ c.atoms, ¬ HybridPh ch.hybrid a.1)
    (given : Option ((Fin n → Vec 3) → ℝ)) (pos : Fin A → Vec 3) (Z : Fin A → ℝ) (w : Walker n) :
    ecpEnergyOptim c given pos Z w = ppEnergy c given pos Z w := by
  obtain ⟨⟨p, hp, hcp⟩, q, hq, hcq⟩ := hm
  obtain ⟨-, -, -, h2⟩ := c115_info c.atoms ch.hybrid ch.loadHybrid
  obtain ⟨b1, b2, b3⟩ := h2 q hq
  have hq1 : q.1 = [] := by
    rw [b1, List.filter_eq_nil_iff]
    intro a ha
    simpa using hno a ha
  have hq2 : q.2 = [] := by
    have : ∀ s, s ∉ q.2.map (·.1) := by
      intro s hs
      rw [mem_keys, b3, if_neg] at hs
      · simp at hs
      · rintro ⟨⟨a, ha, rfl⟩, h⟩
        exact hno a ha h
    have h0 := List.eq_nil_iff_forall_not_mem.mpr this
    simpa using h0
  have hk : keys c.hphInfo = [] := by rw [hcq]; unfold keys; simp [hq2]
  have hmrg : mergeInfo c.phInfo c.hphInfo = mergeInfo c.phInfo none := by
    rw [hcp, hcq]
    unfold mergeInfo
    dsimp only
    rw [hq1, hq2]
    simp
  unfold ecpEnergyOptim ppEnergy
  dsimp only
  rw [hk, hmrg]
  rfl

/-- C115 (limit): the incremental variant does not look at the hybrid elements: whatever they are, the energy is the same, so their
pseudo-Hamiltonian is missing from it. -/
theorem c115_optim_limit (c : Config) (h : Option Info) (given : Option ((Fin n → Vec 3) → ℝ)) (pos : Fin A → Vec 3) (Z : Fin A → ℝ) (w : Walker n) :
    ecpEnergyOptim { c with hphInfo := h } given pos Z w = ecpEnergyOptim c given pos Z w := rfl

/-! ### Examples -/

/-- Sulfur by default a pseudo-Hamiltonian, carbon by its effective core potential, and scandium hybrid. -/
noncomputable def exChoice : Choice := ⟨none, some ["Sc"], fun s => if s = "S" then some ⟨fun r => -r, fun _ => 1⟩ else none,
  fun s => if s = "Sc" then some ⟨fun r => -2 * r, fun _ => 2⟩ else none⟩

noncomputable def exConfig : Config where
  atoms := [("S", 0), ("C", fun _ => 1), ("Sc", fun _ => 2), ("H", fun _ => 3)]
  ecp := [("C", exTable), ("Sc", exTable), ("S", exTable)]
  phInfo := genPhInfo [("S", 0), ("C", fun _ => 1), ("Sc", fun _ => 2), ("H", fun _ => 3)] exChoice.ph exChoice.load
  hphInfo := genHphInfo [("S", 0), ("C", fun _ => 1), ("Sc", fun _ => 2), ("H", fun _ => 3)] exChoice.hybrid exChoice.loadHybrid
  quadrature := none
  maxCore := 4
  nspins := (1, 1)
  kinetic := ⟨false, 0, true⟩

example : Made exConfig exChoice ∧ exConfig.ecpElements = ["C", "Sc"] ∧ (phList exConfig exChoice).map (·.1) = ["S", "Sc"] := by
  have hm : Made exConfig exChoice := by
    unfold Made exConfig
    simp [genPhInfo, genHphInfo, genInfo, exChoice, phAll]
  refine ⟨hm, ?_, ?_⟩
  · simp [Config.ecpElements, exConfig, keys, genPhInfo, genInfo, exChoice, phAll, List.lookup_cons]
  · simp [phList, exConfig, exChoice, PurePh, HybridPh]

end Jaqmc.LegacyPp.Props
