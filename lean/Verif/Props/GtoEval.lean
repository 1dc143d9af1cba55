import Verif.Props.GtoSphere
import Verif.Props.ScfLattice
/-! C101: the values of all contracted orbitals. -/
namespace Jaqmc.Gto.Props
open Geometry Spec
open scoped BigOperators Classical

/-- One contraction: atom, shell and column of weights. -/
structure Ctr where
  atom : ℕ
  sh : Shell
  w : ℕ

/-- The contractions in the order of the loops. -/
def contractions (atoms : List (List Shell × Vec 3)) : List Ctr :=
  atoms.zipIdx.flatMap fun a => a.1.1.flatMap fun sh => (List.range sh.nWeights).map fun w => ⟨a.2, sh, w⟩

theorem construct_eq (atoms : List (List Shell × Vec 3)) :
    construct atoms = (contractions atoms).foldl (fun S c => addContraction c.atom c.sh S c.w) {} := by
  unfold construct contractions
  simp only [List.foldl_flatMap, List.foldl_map]

/-- The primitives kept of a contraction. -/
noncomputable def kept (c : Ctr) : List (ℝ × List ℝ) := c.sh.prims.filter fun p => decide ((1e-12 : ℝ) < |p.2.getD c.w 0|)

/-- The rows of the primitive table: exponent, weight, atom, contraction. -/
noncomputable def table (cs : List Ctr) (n : ℕ) : List (ℝ × ℝ × ℕ × ℕ) :=
  (cs.zipIdx n).flatMap fun c => (kept c.1).map fun p => (p.1, p.2.getD c.1.w 0, c.1.atom, c.2)

theorem addPrims_eq (atom w : ℕ) (S : Gto.Spec) (prims : List (ℝ × List ℝ)) :
    addPrims atom w S prims =
      let k := prims.filter fun p => decide ((1e-12 : ℝ) < |p.2.getD w 0|)
      { S with
        alpha := S.alpha ++ k.map Prod.fst
        weights := S.weights ++ k.map fun p => p.2.getD w 0
        atomId := S.atomId ++ k.map fun _ => atom
        cshellId := S.cshellId ++ k.map fun _ => S.next } := by
  unfold addPrims
  induction prims generalizing S with
  | nil => simp
  | cons p ps ih =>
    rw [List.foldl_cons, ih]
    by_cases h : (1e-12 : ℝ) < |p.2.getD w 0|
    · rw [if_pos h]
      simp only [List.filter_cons, decide_eq_true h, if_true, List.map_cons, List.append_assoc, List.singleton_append]
    · rw [if_neg h]
      simp only [List.filter_cons, decide_eq_false h, Bool.false_eq_true, if_false]

/-- The lists after the contractions `cs`, numbered from `S.next`. -/
theorem fold_eq (cs : List Ctr) (S : Gto.Spec) :
    cs.foldl (fun S c => addContraction c.atom c.sh S c.w) S =
      { alpha := S.alpha ++ (table cs S.next).map (·.1)
        weights := S.weights ++ (table cs S.next).map (·.2.1)
        atomId := S.atomId ++ (table cs S.next).map (·.2.2.1)
        cshellId := S.cshellId ++ (table cs S.next).map (·.2.2.2)
        radialIndex := S.radialIndex ++ (cs.zipIdx S.next).flatMap fun c => (orders c.1.sh.l).map fun _ => c.2
        angularIndex := S.angularIndex ++ cs.flatMap fun c => (orders c.sh.l).map fun m => (c.sh.l, m, c.atom)
        next := S.next + cs.length } := by
  induction cs generalizing S with
  | nil => simp [table]
  | cons c cs ih =>
    rw [List.foldl_cons, ih]
    have ho : (orders c.sh.l).length = 2 * c.sh.l + 1 := by
      unfold orders
      split
      · rename_i h; simp [h]
      · simp
    have hr : (List.range (2 * c.sh.l + 1)).map (fun _ => S.next) = (orders c.sh.l).map fun _ => S.next := by
      rw [List.map_const', List.map_const', List.length_range, ho]
    simp only [addContraction, addPrims_eq, table, List.zipIdx_cons, List.flatMap_cons, List.map_append, List.map_map, List.append_assoc, hr]
    simp only [kept, Function.comp_def, List.length_cons]
    congr 1
    omega

/-- Every primitive of a shell has one weight per contraction (otherwise the code raises `IndexError`), and every contraction
has a weight above the threshold. -/
def WellFormed (sh : Shell) : Prop :=
  (∀ p ∈ sh.prims, p.2.length = sh.nWeights) ∧ ∀ w < sh.nWeights, ∃ p ∈ sh.prims, (1e-12 : ℝ) < |p.2.getD w 0|

theorem orders_eq (l : ℕ) : orders l = order l := by
  rcases l with _ | _ | l
  · simp [orders, order]
  · simp [orders, order]
  · simp [orders, order]

theorem order_mem (l : ℕ) (m : ℤ) (h : m ∈ order l) : m.natAbs ≤ l := by
  rw [← orders_eq] at h
  unfold orders at h
  split at h
  · rename_i h1
    simp at h
    omega
  · simp at h
    obtain ⟨a, ha, rfl⟩ := h
    omega

theorem filter_range_sum {α : Type} (T : List α) (d : α) (q : α → Bool) (g : α → ℝ) :
    ((List.range T.length).filter fun i => q (T.getD i d)).foldl (fun acc i => acc + g (T.getD i d)) 0 = ((T.filter q).map g).sum := by
  have h : ∀ (l : List ℕ) (f : ℕ → ℝ) (a : ℝ), l.foldl (fun acc i => acc + f i) a = a + (l.map f).sum := by
    intro l f
    induction l with
    | nil => simp
    | cons x l ih => intro a; rw [List.foldl_cons, ih, List.map_cons, List.sum_cons]; ring
  rw [h, zero_add]
  congr 1
  have hT : (List.range T.length).map (fun i => T.getD i d) = T := by
    refine List.ext_getElem (by simp) fun i h1 h2 => ?_
    simp [List.getD_eq_getElem?_getD, List.getElem?_eq_getElem h2]
  conv_rhs => rw [← hT, List.filter_map, List.map_map]
  rfl

theorem table_filter (cs : List Ctr) (n i : ℕ) (hi : i < cs.length) :
    (table cs n).filter (fun t => decide (t.2.2.2 = n + i)) = (kept cs[i]).map fun p => (p.1, p.2.getD cs[i].w 0, cs[i].atom, n + i) := by
  induction cs generalizing n i with
  | nil => simp at hi
  | cons c cs ih =>
    unfold table
    rw [List.zipIdx_cons, List.flatMap_cons, List.filter_append]
    rcases i with _ | i
    · have h2 : ((cs.zipIdx (n + 1)).flatMap fun c => (kept c.1).map fun p => (p.1, p.2.getD c.1.w 0, c.1.atom, c.2)).filter
          (fun t => decide (t.2.2.2 = n + 0)) = [] := by
        rw [List.filter_eq_nil_iff]
        intro t ht
        simp only [List.mem_flatMap, List.mem_map] at ht
        obtain ⟨c', hc', p, -, rfl⟩ := ht
        have := List.le_snd_of_mem_zipIdx hc'
        simp; omega
      rw [h2, List.append_nil, List.filter_eq_self.2]
      · simp
      · intro t ht
        simp only [List.mem_map] at ht
        obtain ⟨p, -, rfl⟩ := ht
        simp
    · have h1 : ((kept c).map fun p => (p.1, p.2.getD c.w 0, c.atom, n)).filter (fun t => decide (t.2.2.2 = n + (i + 1))) = [] := by
        rw [List.filter_eq_nil_iff]
        intro t ht
        simp only [List.mem_map] at ht
        obtain ⟨p, -, rfl⟩ := ht
        simp
      have := ih (n + 1) i (by simpa using hi)
      rw [show n + 1 + i = n + (i + 1) by ring] at this
      rw [h1, List.nil_append]
      exact this

theorem le_foldr_max (l : List ℕ) (x : ℕ) (h : x ∈ l) : x ≤ l.foldr max 0 := by
  induction l with
  | nil => simp at h
  | cons a l ih =>
    rw [List.foldr_cons]
    rcases List.mem_cons.1 h with rfl | h
    · exact le_max_left _ _
    · exact (ih h).trans (le_max_right _ _)

/-- **C101** (values).  For every molecule and every basis in which each contraction has a weight above the threshold, the
evaluator returns, atom by atom, shell by shell, contraction by contraction and in PySCF's sequence of orders, the value of the
real solid harmonic at the vector from the atom times the contracted Gaussian. -/
theorem c101_value (atoms : List (List Shell × Vec 3)) (hw : ∀ a ∈ atoms, ∀ sh ∈ a.1, WellFormed sh) (x : Vec 3) :
    evaluate atoms x = atoms.flatMap fun a => a.1.flatMap fun sh => (List.range sh.nWeights).flatMap fun w =>
      (order sh.l).map fun m =>
        MvPolynomial.eval (fun c => x c - a.2 c) (solid sh.l m) * radial 1e-12 sh.prims w (fun c => x c - a.2 c) := by
  set cs := contractions atoms with hcs
  have hS := construct_eq atoms
  rw [fold_eq] at hS
  simp only [List.nil_append, zero_add] at hS
  -- facts about contractions
  have hmem : ∀ c ∈ cs, c.atom < atoms.length ∧ ∃ a ∈ atoms, atoms[c.atom]? = some a ∧ c.sh ∈ a.1 ∧ c.w < c.sh.nWeights := by
    intro c hc
    rw [hcs] at hc
    simp only [contractions, List.mem_flatMap, List.mem_map, List.mem_range] at hc
    obtain ⟨a, ha, sh, hsh, w, hw', rfl⟩ := hc
    have := List.mk_mem_zipIdx_iff_getElem? (x := a.1) (i := a.2) (l := atoms) |>.1 ha
    refine ⟨(List.getElem?_eq_some_iff.1 this).1, a.1, List.mem_of_getElem? this, this, hsh, hw'⟩
  have hwf : ∀ c ∈ cs, kept c ≠ [] := by
    intro c hc
    obtain ⟨-, a, ha, -, hsh, hw'⟩ := hmem c hc
    obtain ⟨p, hp, hlt⟩ := (hw a ha c.sh hsh).2 c.w hw'
    intro h
    have : p ∈ kept c := List.mem_filter.2 ⟨hp, by simpa using hlt⟩
    rw [h] at this
    simp at this
  have hL : ∀ c ∈ cs, c.sh.l ≤ maxL atoms := by
    intro c hc
    obtain ⟨-, a, ha, -, hsh, -⟩ := hmem c hc
    refine le_foldr_max _ _ ?_
    exact List.mem_flatMap.2 ⟨a, ha, List.mem_map.2 ⟨_, hsh, rfl⟩⟩
  set T := table cs 0 with hT
  -- number of segments
  have hseg : ∀ i, i < cs.length → i ≤ (T.map (·.2.2.2)).foldr max 0 := by
    intro i hi
    obtain ⟨p, hp⟩ := List.exists_mem_of_ne_nil _ (hwf cs[i] (List.getElem_mem hi))
    refine le_foldr_max _ _ (List.mem_map.2 ⟨(p.1, p.2.getD cs[i].w 0, cs[i].atom, i), ?_, rfl⟩)
    rw [hT, table]
    refine List.mem_flatMap.2 ⟨(cs[i], i), ?_, List.mem_map.2 ⟨p, hp, rfl⟩⟩
    rw [List.mk_mem_zipIdx_iff_getElem?]
    exact List.getElem?_eq_getElem hi
  unfold evaluate
  simp only [hS]
  set dr := fun a : ℕ => fun c => x c - ((atoms.map Prod.snd).getD a (fun _ => 0)) c with hdr
  -- the radial parts
  have hrad : ∀ i (hi : i < cs.length),
      ((List.range (T.map (·.1)).length).filter fun j => decide ((T.map (·.2.2.2)).getD j 0 = min i ((T.map (·.2.2.2)).foldr max 0 + 1 - 1))).foldl
        (fun acc j => acc + Real.exp (-((T.map (·.1)).getD j 0) * Geometry.norm (dr ((T.map (·.2.2.1)).getD j 0)) ^ 2) * (T.map (·.2.1)).getD j 0) 0
      = radial 1e-12 cs[i].sh.prims cs[i].w (dr cs[i].atom) := by
    intro i hi
    rw [Nat.add_sub_cancel, min_eq_left (hseg i hi), List.length_map]
    have h0 : ∀ {β : Type} (f : (ℝ × ℝ × ℕ × ℕ) → β) (j : ℕ), (T.map f).getD j (f (0, 0, 0, 0)) = f (T.getD j (0, 0, 0, 0)) := by
      intro β f j
      simp only [List.getD_eq_getElem?_getD, List.getElem?_map]
      cases T[j]? <;> rfl
    have h1 := fun j => h0 (fun t => t.1) j
    have h2 := fun j => h0 (fun t => t.2.1) j
    have h3 := fun j => h0 (fun t => t.2.2.1) j
    have h4 := fun j => h0 (fun t => t.2.2.2) j
    simp only at h1 h2 h3 h4
    simp only [h1, h2, h3, h4]
    rw [filter_range_sum T (0, 0, 0, 0) (fun t => decide (t.2.2.2 = i)) (fun t => Real.exp (-t.1 * Geometry.norm (dr t.2.2.1) ^ 2) * t.2.1)]
    have := table_filter cs 0 i hi
    simp only [zero_add] at this
    rw [hT, this, List.map_map]
    unfold radial kept
    congr 1
    refine List.map_congr_left fun p _ => ?_
    have hn : Geometry.norm (dr cs[i].atom) ^ 2 = ∑ c, dr cs[i].atom c ^ 2 := Real.sq_sqrt (Finset.sum_nonneg fun c _ => sq_nonneg _)
    simp only [Function.comp_apply, hn]
    ring
  -- zip the two lists
  have hzip : ∀ (f : ℕ × ℤ × ℕ → ℝ) (g : ℕ → ℝ) (ds : List Ctr) (n : ℕ),
      (((ds.flatMap fun c => (orders c.sh.l).map fun m => (c.sh.l, m, c.atom)).map f).zip
        (((ds.zipIdx n).flatMap fun c => (orders c.1.sh.l).map fun _ => c.2).map g)).map (fun p => p.1 * p.2)
      = (ds.zipIdx n).flatMap fun c => (orders c.1.sh.l).map fun m => f (c.1.sh.l, m, c.1.atom) * g c.2 := by
    intro f g ds
    induction ds with
    | nil => simp
    | cons c ds ih =>
      intro n
      simp only [List.zipIdx_cons, List.flatMap_cons, List.map_append, List.map_map]
      rw [List.zip_append (by simp), List.map_append, ih]
      congr 1
      rw [List.zip_map', List.map_map]
      rfl
  rw [hzip]
  -- replace radial and angular parts
  have hflat : (cs.zipIdx 0).flatMap (fun c => (orders c.1.sh.l).map fun m =>
        solidHarmonic (maxL atoms) (dr c.1.atom) (m + (maxL atoms : ℤ)).toNat c.1.sh.l *
        ((List.range (T.map (·.1)).length).filter fun j => decide ((T.map (·.2.2.2)).getD j 0 = min c.2 ((T.map (·.2.2.2)).foldr max 0 + 1 - 1))).foldl
        (fun acc j => acc + Real.exp (-((T.map (·.1)).getD j 0) * Geometry.norm (dr ((T.map (·.2.2.1)).getD j 0)) ^ 2) * (T.map (·.2.1)).getD j 0) 0)
      = cs.flatMap fun c => (order c.sh.l).map fun m => MvPolynomial.eval (dr c.atom) (solid c.sh.l m) * radial 1e-12 c.sh.prims c.w (dr c.atom) := by
    have e1 : ∀ (ds : List Ctr) (h : Ctr → List ℝ) (n : ℕ), ds.flatMap h = (ds.zipIdx n).flatMap fun c => h c.1 := by
      intro ds h n
      conv_lhs => rw [← List.zipIdx_map_fst n ds, List.flatMap_map]
    rw [e1 cs _ 0]
    refine List.flatMap_congr fun c hc => ?_
    have hc' := List.mk_mem_zipIdx_iff_getElem?.1 hc
    obtain ⟨hi, hci⟩ := List.getElem?_eq_some_iff.1 hc'
    rw [hrad c.2 hi, hci, orders_eq]
    refine List.map_congr_left fun m hm => ?_
    rw [c101_harmonic _ _ m (hL c.1 (by rw [← hci]; exact List.getElem_mem hi)) (order_mem _ _ hm)]
  refine (Eq.trans ?_ hflat).trans ?_
  · rfl
  -- back to atoms
  rw [hcs]
  unfold contractions
  simp only [List.flatMap_assoc, List.flatMap_map]
  have e2 : ∀ (h : (List Shell × Vec 3) × ℕ → List ℝ) (h' : List Shell × Vec 3 → List ℝ),
      (∀ a ∈ atoms.zipIdx, h a = h' a.1) → atoms.zipIdx.flatMap h = atoms.flatMap h' := by
    intro h h' hh
    conv_rhs => rw [← List.zipIdx_map_fst 0 atoms, List.flatMap_map]
    exact List.flatMap_congr hh
  refine e2 _ _ fun a ha => ?_
  have ha' := List.mk_mem_zipIdx_iff_getElem?.1 ha
  have : dr a.2 = fun c => x c - a.1.2 c := by
    rw [hdr]
    simp [List.getD_eq_getElem?_getD, ha']
  simp only [this]

end Jaqmc.Gto.Props
