import Verif.Props.MolEnergy
/-!
C109, continued: which atom is treated how, and the total energy.
-/
namespace Jaqmc.MolEnergy.Props
open Jaqmc.MolEnergy Jaqmc.MolEnergy.Spec Jaqmc.Geometry Jaqmc.Ecp
open Jaqmc.Ph.Spec (radius derivativePart)
open scoped Topology

variable {n : ℕ}

/-! ### Resolution of the atoms -/

theorem mapM_get {α β : Type} (g : α → Option β) (l : List α) (out : List β) (h : l.mapM g = some out) :
    out.length = l.length ∧ ∀ (i : ℕ) (a : α) (b : β), l[i]? = some a → out[i]? = some b → g a = some b := by
  induction l generalizing out with
  | nil =>
    obtain rfl : out = [] := by simpa using h.symm
    exact ⟨rfl, fun i a b h => by simp at h⟩
  | cons x l ih =>
    rw [List.mapM_cons] at h
    cases hx : g x with
    | none => rw [hx] at h; simp at h
    | some y =>
      cases hl : l.mapM g with
      | none => rw [hx, hl] at h; simp at h
      | some ys =>
        rw [hx, hl] at h
        obtain rfl : y :: ys = out := by simpa using h
        obtain ⟨h1, h2⟩ := ih ys hl
        refine ⟨by simp [h1], fun i a b ha hb => ?_⟩
        cases i with
        | zero =>
          simp at ha hb
          rw [← ha, ← hb, hx]
        | succ i => exact h2 i a b (by simpa using ha) (by simpa using hb)

/-- C109 (charges and treatment): in an accepted molecule every atom keeps its element and position (in bohr), has the treatment the
user asked for, removes the core electrons of exactly that treatment, and has the charge given by the user, or else the atomic number less the core; a
pseudo-Hamiltonian atom always has the latter, and its element is one of those with tables. -/
theorem c109_atoms (T : Tables) (c : Config) (atoms : List Atom) (h : c.resolve T = some atoms) :
    atoms.length = c.atoms.length ∧ ∀ (i : ℕ) (g : AtomConfig) (a : Atom), c.atoms[i]? = some g → atoms[i]? = some a →
      a.symbol = g.symbol ∧ a.pp = c.pp.of g.symbol ∧
      (∀ k, a.coords k = if c.angstrom then g.coords k / 0.52917721067 else g.coords k) ∧
      ∃ t z, treatment T.loadEcp a.pp a.symbol = some t ∧ T.number a.symbol = some z ∧
        (match t with
          | .allElectron => a.core = 0
          | .effectiveCore p => a.core = p.core
          | .pseudoHamiltonian => a.core = 10 ∧ a.symbol ∈ phSupported ∧ a.charge = z - 10) ∧
        (∀ q, g.charge = some q → a.charge = q) ∧ (g.charge = none → a.charge = z - a.core) := by
  unfold Config.resolve at h
  obtain ⟨h1, h2⟩ := mapM_get _ _ _ h
  refine ⟨h1, fun i g a hg ha => ?_⟩
  have hm := h2 i g a hg ha
  clear h2 h1 h
  unfold mkAtom at hm
  cases hcore : coreElectrons T g.symbol (c.pp.of g.symbol) with
  | none => rw [hcore] at hm; simp at hm
  | some core =>
    cases hz : T.number g.symbol with
    | none => rw [hcore, hz] at hm; simp at hm
    | some z =>
      rw [hcore, hz] at hm
      have hc : ∀ k, (if c.angstrom = true then fun k => g.coords k * angstromInBohr else g.coords) k =
          if c.angstrom = true then g.coords k / 0.52917721067 else g.coords k := by
        intro k
        split
        · unfold angstromInBohr; ring
        · rfl
      have key : ∀ q, a = ⟨g.symbol, if c.angstrom = true then fun k => g.coords k * angstromInBohr else g.coords, q, core, c.pp.of g.symbol⟩ →
          (c.pp.of g.symbol = some PH → q = z - core) → (∀ q', g.charge = some q' → q = q') → (g.charge = none → q = z - core) →
          a.symbol = g.symbol ∧ a.pp = c.pp.of g.symbol ∧
            (∀ k, a.coords k = if c.angstrom then g.coords k / 0.52917721067 else g.coords k) ∧
            ∃ t z, treatment T.loadEcp a.pp a.symbol = some t ∧ T.number a.symbol = some z ∧
              (match t with
                | .allElectron => a.core = 0
                | .effectiveCore p => a.core = p.core
                | .pseudoHamiltonian => a.core = 10 ∧ a.symbol ∈ phSupported ∧ a.charge = z - 10) ∧
              (∀ q, g.charge = some q → a.charge = q) ∧ (g.charge = none → a.charge = z - a.core) := by
        rintro q rfl hph hq1 hq2
        refine ⟨rfl, rfl, hc, ?_⟩
        dsimp only
        cases hpp : c.pp.of g.symbol with
        | none =>
          rw [hpp] at hcore
          refine ⟨.allElectron, z, rfl, hz, ?_, hq1, hq2⟩
          simpa [coreElectrons] using hcore.symm
        | some pp =>
          rw [hpp] at hcore hph
          unfold coreElectrons at hcore
          dsimp only at hcore
          by_cases hp : pp = PH
          · subst hp
            rw [if_pos rfl] at hcore
            split at hcore
            · rename_i hs
              obtain rfl : 10 = core := by simpa using hcore
              exact ⟨.pseudoHamiltonian, z, rfl, hz, ⟨rfl, hs, hph rfl⟩, hq1, hq2⟩
            · simp at hcore
          · rw [if_neg hp] at hcore
            obtain ⟨p, hp1, hp2⟩ := Option.map_eq_some_iff.mp hcore
            refine ⟨.effectiveCore p, z, ?_, hz, hp2.symm, hq1, hq2⟩
            unfold treatment
            split
            · simp at *
            · rename_i heq
              exact absurd (Option.some.inj heq) hp
            · rename_i name hne heq
              obtain rfl : pp = name := Option.some.inj heq
              rw [hp1]
              rfl
      dsimp only at hm
      cases hch : g.charge with
      | none =>
        rw [hch] at hm key
        exact hch ▸ key (z - core) (Option.some.inj hm).symm (fun _ => rfl) (fun q' h => by simp at h) fun _ => rfl
      | some q =>
        rw [hch] at hm key
        dsimp only at hm
        split at hm
        · simp at hm
        · rename_i hn
          refine hch ▸ key q (Option.some.inj hm).symm (fun hp => ?_) (fun q' h => by simpa using h) (fun h => by simp at h)
          by_contra hne
          exact hn ⟨fun he => hne (by omega), hp⟩

/-- C109 (refusals): a pseudo-Hamiltonian for an element without tables, or with a charge that is not the valence charge, is
refused, as is an effective core potential the library does not have and a `pp` entry for an element that is not in the molecule. -/
theorem c109_refused (T : Tables) (c : Config) (w : Walker n) :
    (∀ g ∈ c.atoms, c.pp.of g.symbol = some PH → g.symbol ∉ phSupported → totalEnergy T c w = none) ∧
    (∀ g ∈ c.atoms, c.pp.of g.symbol = some PH → ∀ q, g.charge = some q → (∀ z, T.number g.symbol = some z → q ≠ z - 10) →
      totalEnergy T c w = none) ∧
    (∀ g ∈ c.atoms, ∀ name, c.pp.of g.symbol = some name → name ≠ PH → T.loadEcp name g.symbol = none → totalEnergy T c w = none) ∧
    (∀ d, c.pp = .dict d → ∀ e ∈ d, (∀ g ∈ c.atoms, g.symbol ≠ e.1) → totalEnergy T c w = none) := by
  have key : ∀ g ∈ c.atoms, (∀ x, mkAtom T g.symbol x g.charge (c.pp.of g.symbol) = none) → totalEnergy T c w = none := by
    intro g hg hn
    unfold totalEnergy
    split
    · rfl
    · cases hr : c.resolve T with
      | none => rfl
      | some atoms =>
        exfalso
        unfold Config.resolve at hr
        obtain ⟨h1, h2⟩ := mapM_get _ _ _ hr
        obtain ⟨i, hi⟩ := List.mem_iff_getElem?.mp hg
        have hlt : i < atoms.length := by
          rw [h1]
          exact (List.getElem?_eq_some_iff.mp hi).1
        have := h2 i g _ hi (List.getElem?_eq_getElem hlt)
        rw [hn] at this
        simp at this
  refine ⟨fun g hg hpp hs => key g hg fun x => ?_, fun g hg hpp q hq hz => key g hg fun x => ?_,
    fun g hg name hpp hne hl => key g hg fun x => ?_, fun d hd e he hno => ?_⟩
  · unfold mkAtom coreElectrons
    rw [hpp]
    dsimp only
    rw [if_pos rfl, if_neg hs]
  · unfold mkAtom
    rw [hpp, hq]
    cases hc : coreElectrons T g.symbol (some PH) with
    | none => rfl
    | some core =>
      have hcore : core = 10 := by
        unfold coreElectrons at hc
        dsimp only at hc
        rw [if_pos rfl] at hc
        split at hc
        · simpa using hc.symm
        · simp at hc
      cases hn : T.number g.symbol with
      | none => rfl
      | some z =>
        dsimp only
        rw [if_pos ⟨fun he => hz z hn (by omega), rfl⟩]
  · unfold mkAtom coreElectrons
    rw [hpp]
    dsimp only
    rw [if_neg hne, hl]
    rfl
  · unfold totalEnergy
    rw [if_pos]
    intro hu
    unfold Config.used at hu
    rw [hd] at hu
    obtain ⟨a, ha, hs⟩ := hu e he
    exact hno a ha hs

/-! ### Which estimator sees which atom -/

theorem resolve_pp (T : Tables) (c : Config) (atoms : List Atom) (h : c.resolve T = some atoms) (a : Atom) (ha : a ∈ atoms) :
    a.pp = c.pp.of a.symbol ∧ ∃ t, treatment T.loadEcp a.pp a.symbol = some t := by
  obtain ⟨h1, h2⟩ := c109_atoms T c atoms h
  obtain ⟨i, hi⟩ := List.mem_iff_getElem?.mp ha
  have hlt : i < c.atoms.length := by
    rw [← h1]
    exact (List.getElem?_eq_some_iff.mp hi).1
  obtain ⟨hs, hp, _, t, z, ht, _⟩ := h2 i _ a (List.getElem?_eq_getElem hlt) hi
  exact ⟨by rw [hp, hs], t, ht⟩

/-- The table an element is given by `ecp_coefficients`. -/
noncomputable def tableOf (T : Tables) (q : String → Option String) (s : String) : Option PyscfEcp :=
  match q s with
  | some pp => if pp = PH then none else T.loadEcp pp s
  | none => none

theorem tableOf_iff (T : Tables) (q : String → Option String) (s : String) (p : PyscfEcp) :
    tableOf T q s = some p ↔ treatment T.loadEcp (q s) s = some (.effectiveCore p) := by
  unfold tableOf treatment
  cases q s with
  | none => simp
  | some pp =>
    dsimp only
    by_cases hp : pp = PH
    · subst hp
      simp [PH]
    · rw [if_neg hp]
      split
      · simp at *
      · rename_i heq
        exact absurd (Option.some.inj heq) hp
      · rename_i name hne heq
        obtain rfl : pp = name := Option.some.inj heq
        cases T.loadEcp pp s <;> simp

theorem coefficients_lookup (T : Tables) (q : String → Option String) (atoms : List Atom) (hq : ∀ a ∈ atoms, a.pp = q a.symbol) (s : String) :
    (ecpCoefficients T atoms).lookup s = if ∃ a ∈ atoms, a.symbol = s then tableOf T q s else none := by
  have key : ∀ (l : List Atom) (d : List (String × PyscfEcp)), (∀ a ∈ l, a.pp = q a.symbol) →
      (l.foldl (fun d a =>
        match a.pp with
        | some pp => if pp = PH then d else
            match T.loadEcp pp a.symbol with
            | some p => Stats.Dict.set d a.symbol p
            | none => d
        | none => d) d).lookup s = if ∃ a ∈ l, a.symbol = s then (match tableOf T q s with | some p => some p | none => d.lookup s) else d.lookup s := by
    intro l
    induction l with
    | nil => intro d _; simp
    | cons a l ih =>
      intro d hl
      have hstep : ∀ d : List (String × PyscfEcp), (match a.pp with
        | some pp => if pp = PH then d else
            match T.loadEcp pp a.symbol with
            | some p => Stats.Dict.set d a.symbol p
            | none => d
        | none => d) = match tableOf T q a.symbol with | some p => Stats.Dict.set d a.symbol p | none => d := by
        intro d
        rw [hl a (by simp)]
        unfold tableOf
        cases q a.symbol with
        | none => rfl
        | some pp =>
          dsimp only
          split <;> rfl
      rw [List.foldl_cons, hstep, ih _ fun b hb => hl b (by simp [hb])]
      by_cases hs : a.symbol = s
      · subst hs
        have h1 : ∃ b ∈ a :: l, b.symbol = a.symbol := ⟨a, by simp, rfl⟩
        rw [if_pos h1]
        cases tableOf T q a.symbol with
        | none => simp
        | some p => simp [Stats.Props.lookup_set_self]
      · have h1 : (∃ b ∈ a :: l, b.symbol = s) ↔ ∃ b ∈ l, b.symbol = s := by simp [hs]
        have h2 : (match tableOf T q a.symbol with | some p => Stats.Dict.set d a.symbol p | none => d).lookup s = d.lookup s := by
          cases tableOf T q a.symbol with
          | none => rfl
          | some p => exact Stats.Props.lookup_set_ne d p (Ne.symm hs)
        simp only [h1, h2]
  have := key atoms [] hq
  refine Eq.trans (by unfold ecpCoefficients; congr!) (this.trans ?_)
  simp only [List.lookup_nil]
  split
  · cases tableOf T q s <;> rfl
  · rfl

/-- C109 (routing): the effective-core estimator sees exactly the atoms to be treated by an effective core potential, with the table of
their own element, and the pseudo-Hamiltonian estimator exactly the pseudo-Hamiltonian atoms, each once: no atom is treated twice, none is
left out. -/
theorem c109_routing (T : Tables) (c : Config) (atoms : List Atom) (h : c.resolve T = some atoms) (w : Walker n) :
    (∀ (i : ℕ) (p : PyscfEcp), (i, p) ∈ (ecpEstimator w (ecpCoefficients T atoms) (atoms.map (·.symbol))).atoms ↔
      ∃ a, atoms[i]? = some a ∧ treatment T.loadEcp a.pp a.symbol = some (.effectiveCore p)) ∧
    (ecpCoefficients T atoms = [] ↔ ∀ a ∈ atoms, ∀ p, treatment T.loadEcp a.pp a.symbol ≠ some (.effectiveCore p)) ∧
    (phElements atoms = [] ↔ ∀ a ∈ atoms, treatment T.loadEcp a.pp a.symbol ≠ some .pseudoHamiltonian) ∧
    (phElements atoms ≠ [] → ∃ idx, Ph.resolve phSupported (phElements atoms) (atoms.map (·.symbol)) = some idx ∧ idx.Nodup ∧
      ∀ i : ℕ, i ∈ idx ↔ ∃ a, atoms[i]? = some a ∧ treatment T.loadEcp a.pp a.symbol = some .pseudoHamiltonian) := by
  have hq := fun a ha => (resolve_pp T c atoms h a ha).1
  have hlk := coefficients_lookup T c.pp.of atoms hq
  have hph : ∀ a : Atom, treatment T.loadEcp a.pp a.symbol = some .pseudoHamiltonian ↔ a.pp = some PH := by
    intro a
    unfold treatment
    split
    · simp_all
    · simp_all [PH]
    · rename_i name hne heq
      rw [heq]
      constructor
      · intro h'
        cases hl : T.loadEcp name a.symbol <;> rw [hl] at h' <;> simp at h'
      · intro h'
        exact absurd (Option.some.inj h') hne
  have hmem : ∀ i a, atoms[i]? = some a → a ∈ atoms := fun i a hi => List.mem_iff_getElem?.mpr ⟨i, hi⟩
  refine ⟨fun i p => ?_, ?_, ?_, fun hne => ?_⟩
  · unfold Estimator.atoms ecpAtoms ecpEstimator
    rw [List.mem_filterMap]
    constructor
    · rintro ⟨⟨s, j⟩, h1, h2⟩
      obtain ⟨p', hp, he⟩ := Option.map_eq_some_iff.mp h2
      obtain ⟨rfl, rfl⟩ := Prod.mk.injEq .. ▸ he
      have hz := List.mem_zipIdx' h1
      have hlt : j < atoms.length := by simpa using hz.1
      refine ⟨atoms[j], List.getElem?_eq_getElem hlt, ?_⟩
      have hs : s = atoms[j].symbol := by simpa using hz.2
      rw [hlk] at hp
      split at hp
      · rw [tableOf_iff, hs] at hp
        rw [hq _ (List.getElem_mem _)]
        exact hp
      · cases hp
    · rintro ⟨a, ha, ht⟩
      refine ⟨(a.symbol, i), ?_, ?_⟩
      · rw [List.mem_zipIdx_iff_getElem?]
        simp [ha]
      · dsimp only
        rw [hlk, if_pos ⟨a, hmem i a ha, rfl⟩]
        rw [hq a (hmem i a ha)] at ht
        rw [(tableOf_iff T c.pp.of a.symbol p).mpr ht]
        rfl
  · constructor
    · intro h0 a ha p ht
      have := hlk a.symbol
      rw [h0, if_pos ⟨a, ha, rfl⟩] at this
      rw [hq a ha, ← tableOf_iff, ← this] at ht
      cases ht
    · intro h0
      have hn : ∀ s, (ecpCoefficients T atoms).lookup s = none := by
        intro s
        rw [hlk]
        split
        · rename_i hex
          obtain ⟨a, ha, rfl⟩ := hex
          cases ht : tableOf T c.pp.of a.symbol with
          | none => rfl
          | some p =>
            rw [tableOf_iff, ← hq a ha] at ht
            exact absurd ht (h0 a ha p)
        · rfl
      cases hc : ecpCoefficients T atoms with
      | nil => rfl
      | cons e es =>
        obtain ⟨k, v⟩ := e
        have := hn k
        rw [hc] at this
        simp [List.lookup_cons] at this
  · unfold phElements
    rw [List.map_eq_nil_iff, List.filter_eq_nil_iff]
    refine forall₂_congr fun a ha => ?_
    rw [ne_eq, hph]
    simp
  · unfold Ph.resolve
    rw [if_neg hne]
    have hsup : ¬ ∃ s ∈ phElements atoms, s ∉ phSupported := by
      rintro ⟨s, hs, hns⟩
      obtain ⟨a, ha, rfl⟩ := List.mem_map.mp hs
      obtain ⟨ha, hp⟩ := List.mem_filter.mp ha
      obtain ⟨h1, h2⟩ := c109_atoms T c atoms h
      obtain ⟨i, hi⟩ := List.mem_iff_getElem?.mp ha
      have hlt : i < c.atoms.length := by
        rw [← h1]
        exact (List.getElem?_eq_some_iff.mp hi).1
      obtain ⟨_, _, _, t, z, ht, _, h3, _⟩ := h2 i _ a (List.getElem?_eq_getElem hlt) hi
      rw [(hph a).mpr (by simpa using hp)] at ht
      obtain rfl := Option.some.inj ht
      exact hns h3.2.1
    rw [if_neg hsup]
    dsimp only
    have hin : ∀ i : ℕ, i ∈ (((atoms.map (·.symbol)).zipIdx.filter fun p => decide (p.1 ∈ phElements atoms)).map (·.2)) ↔
        ∃ a, atoms[i]? = some a ∧ treatment T.loadEcp a.pp a.symbol = some .pseudoHamiltonian := by
      intro i
      rw [List.mem_map]
      constructor
      · rintro ⟨⟨s, j⟩, h1, rfl⟩
        obtain ⟨h1, h2⟩ := List.mem_filter.mp h1
        have hz := List.mem_zipIdx' h1
        have hlt : j < atoms.length := by simpa using hz.1
        refine ⟨atoms[j], List.getElem?_eq_getElem hlt, ?_⟩
        have hs : s = atoms[j].symbol := by simpa using hz.2
        have h2' : s ∈ phElements atoms := by simpa using h2
        obtain ⟨b, hb, hbs⟩ := List.mem_map.mp h2'
        obtain ⟨hb, hbp⟩ := List.mem_filter.mp hb
        rw [hph, hq _ (List.getElem_mem _), ← hs, ← hbs, ← hq b hb]
        simpa using hbp
      · rintro ⟨a, ha, ht⟩
        refine ⟨(a.symbol, i), List.mem_filter.mpr ⟨?_, ?_⟩, rfl⟩
        · rw [List.mem_zipIdx_iff_getElem?]
          simp [ha]
        · simp only [decide_eq_true_eq]
          exact List.mem_map.mpr ⟨a, List.mem_filter.mpr ⟨hmem i a ha, by simpa using (hph a).mp ht⟩, rfl⟩
    have hne' : (((atoms.map (·.symbol)).zipIdx.filter fun p => decide (p.1 ∈ phElements atoms)).map (·.2)) ≠ [] := by
      obtain ⟨s, hs⟩ := List.exists_mem_of_ne_nil _ hne
      obtain ⟨a, ha, rfl⟩ := List.mem_map.mp hs
      obtain ⟨ha, hp⟩ := List.mem_filter.mp ha
      obtain ⟨i, hi⟩ := List.mem_iff_getElem?.mp ha
      exact List.ne_nil_of_mem ((hin i).mpr ⟨a, hi, (hph a).mpr (by simpa using hp)⟩)
    rw [if_neg hne']
    refine ⟨_, rfl, ?_, hin⟩
    have hnd : ((atoms.map (·.symbol)).zipIdx.map (·.2)).Nodup := by
      rw [List.zipIdx_map_snd]
      exact List.nodup_range'
    exact hnd.sublist (List.Sublist.map _ List.filter_sublist)

/-- C109 (choice): a single name treats every atom by that potential, a dictionary only the atoms of the elements it lists, each by its own entry, and
without the argument every atom keeps all its electrons. -/
theorem c109_choice (T : Tables) (c : Config) (atoms : List Atom) (h : c.resolve T = some atoms) :
    (c.pp = .none → ∀ a ∈ atoms, a.pp = none ∧ a.core = 0) ∧ (∀ name, c.pp = .all name → ∀ a ∈ atoms, a.pp = some name) ∧
    (∀ d, c.pp = .dict d → ∀ a ∈ atoms, (∀ name, a.pp = some name → (a.symbol, name) ∈ d) ∧
      (a.pp = none ↔ ∀ e ∈ d, e.1 ≠ a.symbol)) := by
  refine ⟨fun hp a ha => ?_, fun name hp a ha => ?_, fun d hp a ha => ?_⟩
  · obtain ⟨h1, h2⟩ := c109_atoms T c atoms h
    obtain ⟨i, hi⟩ := List.mem_iff_getElem?.mp ha
    have hlt : i < c.atoms.length := h1 ▸ (List.getElem?_eq_some_iff.mp hi).1
    obtain ⟨-, hpp, -, t, z, ht, -, hcore, -⟩ := h2 i _ a (List.getElem?_eq_getElem hlt) hi
    rw [hp] at hpp
    have hpp' : a.pp = none := hpp
    rw [hpp'] at ht
    simp only [treatment, Option.some.injEq] at ht
    subst ht
    exact ⟨hpp', hcore⟩
  · have := (resolve_pp T c atoms h a ha).1
    rw [hp] at this
    exact this
  · have := (resolve_pp T c atoms h a ha).1
    rw [hp] at this
    have this' : a.pp = d.lookup a.symbol := this
    refine ⟨fun name hn => Ecp.Props.lookup_mem d _ _ (this'.symm.trans hn), ?_⟩
    rw [this', List.lookup_eq_none_iff]
    exact ⟨fun hh e he hs => by simpa [hs] using hh e he, fun hh e he => by simpa using fun hs => hh e he hs.symm⟩

/-- C109 (settings): the number of nuclei, the quadrature rule and open boundaries reach the effective-core estimator as configured. -/
theorem c109_settings (w : Walker n) (coeffs : List (String × PyscfEcp)) (symbols : List String) :
    (ecpEstimator w coeffs symbols).maxCore = w.maxCore ∧ (ecpEstimator w coeffs symbols).rule = w.rule ∧
    (ecpEstimator w coeffs symbols).boundary.lattice = none := ⟨rfl, rfl, rfl⟩

end Jaqmc.MolEnergy.Props
