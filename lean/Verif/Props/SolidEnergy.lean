import Verif.Model.SolidEnergy
import Verif.Spec.SolidEnergy
import Verif.Props.MolEnergyH
import Verif.Props.Ewald
import Verif.Props.Supercell
import Verif.Props.Wavefunction
/-!
C112: the local energy of a crystal.
-/
namespace Jaqmc.SolidEnergy.Props
open Jaqmc.SolidEnergy Jaqmc.SolidEnergy.Spec Jaqmc.Geometry Jaqmc.Geometry.Spec Jaqmc.Ecp Jaqmc.Supercell Matrix
open Jaqmc.MolEnergy (Tables Pp Atom mkAtom ecpCoefficients phElements flatten unflatten)
open Jaqmc.MolEnergy.Spec (treatment Treatment)
open scoped Classical

variable {n : ℕ}

/-! ### The atoms of the simulation cell -/

theorem flat_length {α β : Type} (f : α → List β) (N : ℕ) (hf : ∀ x, (f x).length = N) (l : List α) : (l.flatMap f).length = l.length * N := by
  induction l with
  | nil => simp
  | cons x l ih => rw [List.flatMap_cons, List.length_append, ih, hf, List.length_cons]; ring

theorem flat_get {α β : Type} (f : α → List β) (N : ℕ) (hf : ∀ x, (f x).length = N) (l : List α) (p a : ℕ) (ha : a < N) :
    (l.flatMap f)[p * N + a]? = (l[p]?).bind fun x => (f x)[a]? := by
  induction l generalizing p with
  | nil => simp
  | cons x l ih =>
    rw [List.flatMap_cons]
    cases p with
    | zero => rw [List.getElem?_append_left (by rw [hf]; omega)]; simp
    | succ p =>
      rw [List.getElem?_append_right (by rw [hf, Nat.succ_mul]; omega), hf,
        show (p + 1) * N + a - N = p * N + a by rw [Nat.succ_mul]; omega, ih p]
      simp

theorem tile_get {β : Type} (l : List β) (q p a : ℕ) (hp : p < q) (ha : a < l.length) :
    ((List.replicate q l).flatten)[p * l.length + a]? = l[a]? := by
  have := flat_get (fun _ : Unit => l) l.length (fun _ => rfl) (List.replicate q ()) p a ha
  rw [List.flatMap_replicate] at this
  rw [this, List.getElem?_replicate, if_pos hp]
  rfl

theorem tile_length {β : Type} (l : List β) (q : ℕ) : ((List.replicate q l).flatten).length = q * l.length := by
  simp

variable (c : Config) (atoms : List Atom)

theorem coords_length : (c.coords atoms).length = (copies c.lattice c.supercell).length * atoms.length := by
  unfold Config.coords
  exact flat_length _ _ (fun _ => by simp) _

theorem coords_get (p a : ℕ) (ha : a < atoms.length) :
    (c.coords atoms)[p * atoms.length + a]? = ((copies c.lattice c.supercell)[p]?).bind fun R => (atoms[a]?).map fun x => fun k => R k + x.coords k := by
  unfold Config.coords
  rw [flat_get _ atoms.length (fun _ => by simp) _ p a ha]
  simp

/-- C112 (the lists agree): the positions, charges and symbols handed to the estimators have the same length, the number of primitive
atoms times the number of primitive cells, and entry `i` of each belongs to the same primitive atom, number `i` modulo the number of
atoms. -/
theorem c112_aligned (hA : IsUnit c.lattice.det) (h : c.supercell.det ≠ 0) (hb : |c.supercell.det| < 100000) (hcol : ∀ j, ∃ i, 0 < c.supercell i j) :
    (c.coords atoms).length = scale c.supercell * atoms.length ∧ (c.charges atoms).length = scale c.supercell * atoms.length ∧
    (c.symbols atoms).length = scale c.supercell * atoms.length ∧
    ∀ i < scale c.supercell * atoms.length, ∃ a R, atoms[i % atoms.length]? = some a ∧ R ∈ copies c.lattice c.supercell ∧
      (c.coords atoms)[i]? = some (fun k => R k + a.coords k) ∧ (c.charges atoms)[i]? = some a.charge ∧ (c.symbols atoms)[i]? = some a.symbol := by
  obtain ⟨-, hl, -⟩ := Supercell.Props.c36_tiling_partial c.lattice hA c.supercell h hb hcol
  have l1 := coords_length c atoms
  have l2 : (c.charges atoms).length = scale c.supercell * atoms.length := by
    unfold Config.charges
    rw [tile_length, hl, List.length_map]
  have l3 : (c.symbols atoms).length = scale c.supercell * atoms.length := by
    unfold Config.symbols
    rw [tile_length, List.length_map]
  refine ⟨by rw [l1, hl], l2, l3, fun i hi => ?_⟩
  have hN : 0 < atoms.length := by
    rcases Nat.eq_zero_or_pos atoms.length with h0 | h0
    · rw [h0] at hi; omega
    · exact h0
  have ha : i % atoms.length < atoms.length := Nat.mod_lt _ hN
  have hp : i / atoms.length < scale c.supercell := Nat.div_lt_of_lt_mul (by rw [mul_comm]; exact hi)
  have hi' : i / atoms.length * atoms.length + i % atoms.length = i := by rw [mul_comm]; exact Nat.div_add_mod _ _
  have hp' : i / atoms.length < (copies c.lattice c.supercell).length := by rw [hl]; exact hp
  refine ⟨atoms[i % atoms.length], (copies c.lattice c.supercell)[i / atoms.length], List.getElem?_eq_getElem ha, List.getElem_mem _, ?_, ?_, ?_⟩
  · conv_lhs => rw [← hi']
    rw [coords_get c atoms _ _ ha, List.getElem?_eq_getElem hp', List.getElem?_eq_getElem ha]
    rfl
  · conv_lhs => rw [← hi']
    have := tile_get (atoms.map (·.charge)) (copies c.lattice c.supercell).length (i / atoms.length) (i % atoms.length) hp' (by simpa using ha)
    rw [List.length_map] at this
    unfold Config.charges
    rw [this]
    simp [List.getElem?_eq_getElem ha]
  · conv_lhs => rw [← hi']
    have := tile_get (atoms.map (·.symbol)) (scale c.supercell) (i / atoms.length) (i % atoms.length) hp (by simpa using ha)
    rw [List.length_map] at this
    unfold Config.symbols
    rw [this]
    simp [List.getElem?_eq_getElem ha]

theorem image_of_super (A : Matrix (Fin 3) (Fin 3) ℝ) (S : Matrix (Fin 3) (Fin 3) ℤ) (t : Fin 3 → ℤ) :
    ∃ m, translation (supercellLattice A S) t = translation A m := by
  refine ⟨t ᵥ* S, ?_⟩
  rw [Supercell.Props.super_translation]
  rfl

theorem translation_sub (A : Matrix (Fin 3) (Fin 3) ℝ) (m m' : Fin 3 → ℤ) (k : Fin 3) :
    translation A (m - m') k = translation A m k - translation A m' k := by
  unfold translation
  rw [← Finset.sum_sub_distrib]
  refine Finset.sum_congr rfl fun i _ => ?_
  push_cast [Pi.sub_apply]
  ring

/-- C112 (the crystal): the simulation cell handed to the estimators is the crystal the user described, every atom once, with its element and
charge. -/
theorem c112_crystal (hA : IsUnit c.lattice.det) (h : c.supercell.det ≠ 0) (hb : |c.supercell.det| < 100000) (hcol : ∀ j, ∃ i, 0 < c.supercell i j) :
    SameCrystal c.lattice c.cell (fun j : Fin atoms.length => (atoms.get j).coords) (fun j => ((atoms.get j).symbol, (atoms.get j).charge))
      (fun i : Fin (c.coords atoms).length => (c.coords atoms).get i) (fun i => ((c.symbols atoms).getD i "", (c.charges atoms).getD i 0)) := by
  obtain ⟨h1, h2, h3, h4⟩ := c112_aligned c atoms hA h hb hcol
  obtain ⟨-, hl, hp1, hp2, hp3⟩ := Supercell.Props.c36_tiling_partial c.lattice hA c.supercell h hb hcol
  have hN : ∀ i : Fin (c.coords atoms).length, 0 < atoms.length := by
    intro i
    have := lt_of_lt_of_eq i.2 h1
    rcases Nat.eq_zero_or_pos atoms.length with h0 | h0
    · rw [h0] at this; omega
    · exact h0
  have desc : ∀ i : Fin (c.coords atoms).length, ∃ (p a : ℕ) (hp : p < (copies c.lattice c.supercell).length) (ha : a < atoms.length),
      i.val = p * atoms.length + a ∧ (c.coords atoms).get i = (fun k => (copies c.lattice c.supercell)[p] k + atoms[a].coords k) ∧
      (c.symbols atoms).getD i "" = atoms[a].symbol ∧ (c.charges atoms).getD i 0 = atoms[a].charge := by
    intro i
    have hi := lt_of_lt_of_eq i.2 h1
    have ha : i.val % atoms.length < atoms.length := Nat.mod_lt _ (hN i)
    have hp' : i.val / atoms.length < (copies c.lattice c.supercell).length := by
      rw [hl]
      exact Nat.div_lt_of_lt_mul (by rw [mul_comm]; exact hi)
    have hi' : i.val / atoms.length * atoms.length + i.val % atoms.length = i.val := by rw [mul_comm]; exact Nat.div_add_mod _ _
    refine ⟨_, _, hp', ha, hi'.symm, ?_, ?_, ?_⟩
    · have hg : (c.coords atoms)[i.val]? = some ((c.coords atoms).get i) := List.getElem?_eq_getElem i.2
      have hc := coords_get c atoms (i.val / atoms.length) (i.val % atoms.length) ha
      rw [hi', hg, List.getElem?_eq_getElem hp', List.getElem?_eq_getElem ha] at hc
      exact Option.some.inj hc
    · obtain ⟨a, R, e1, -, -, -, e2⟩ := h4 i.val hi
      rw [List.getElem?_eq_getElem ha] at e1
      rw [List.getD_eq_getElem?_getD, e2, ← Option.some.inj e1]
      rfl
    · obtain ⟨a, R, e1, -, -, e2, -⟩ := h4 i.val hi
      rw [List.getElem?_eq_getElem ha] at e1
      rw [List.getD_eq_getElem?_getD, e2, ← Option.some.inj e1]
      rfl
  refine ⟨?_, ?_, ?_⟩
  · intro i
    obtain ⟨p, a, hp, ha, -, e1, e2, e3⟩ := desc i
    obtain ⟨m, hm⟩ := hp1 _ (List.getElem_mem hp)
    refine ⟨⟨a, ha⟩, m, ?_, ?_⟩
    · rw [e1, hm]
      funext k
      rw [add_comm]
      rfl
    · simp only [e2, e3, List.get_eq_getElem]
  · intro j m
    obtain ⟨R, hR, t, ht⟩ := hp3 m
    obtain ⟨p, hp, rfl⟩ := List.mem_iff_getElem.mp hR
    have hi : p * atoms.length + j.val < (c.coords atoms).length := by
      rw [coords_length]
      calc p * atoms.length + j.val < p * atoms.length + atoms.length := by have := j.2; omega
        _ = (p + 1) * atoms.length := by ring
        _ ≤ _ := Nat.mul_le_mul_right _ hp
    obtain ⟨p', a, hp', ha, e0, e1, e2, e3⟩ := desc ⟨_, hi⟩
    have hpa : p' = p ∧ a = j.val := by
      dsimp only at e0
      have hj := j.2
      have hpos : 0 < atoms.length := lt_of_le_of_lt (Nat.zero_le _) hj
      have m1 : (p * atoms.length + j.val) % atoms.length = j.val := by
        rw [Nat.add_comm, Nat.add_mul_mod_self_right, Nat.mod_eq_of_lt hj]
      have m2 : (p' * atoms.length + a) % atoms.length = a := by
        rw [Nat.add_comm, Nat.add_mul_mod_self_right, Nat.mod_eq_of_lt ha]
      have hja : a = j.val := by rw [← m1, ← m2, e0]
      refine ⟨?_, hja⟩
      rw [hja] at e0
      exact Nat.eq_of_mul_eq_mul_right hpos (by omega)
    obtain ⟨rfl, rfl⟩ := hpa
    refine ⟨⟨_, hi⟩, ?_, t, fun k => ?_⟩
    · simp only [e2, e3, List.get_eq_getElem]
    · rw [e1]
      have := ht k
      simp only [List.get_eq_getElem]
      rw [this]
      unfold Config.cell
      ring
  · intro hd i i' ⟨t, ht⟩
    obtain ⟨p, a, hp, ha, e0, e1, -, -⟩ := desc i
    obtain ⟨p', a', hp', ha', e0', e1', -, -⟩ := desc i'
    rw [e1, e1'] at ht
    obtain ⟨m, hm⟩ := hp1 _ (List.getElem_mem hp)
    obtain ⟨m', hm'⟩ := hp1 _ (List.getElem_mem hp')
    obtain ⟨s, hs⟩ := image_of_super c.lattice c.supercell t
    have haa : (⟨a, ha⟩ : Fin atoms.length) = ⟨a', ha'⟩ := by
      refine hd _ _ ⟨m + s - m', fun k => ?_⟩
      have := ht k
      rw [show translation c.cell t = translation c.lattice s from hs, hm, hm'] at this
      rw [translation_sub, Wf.Props.translation_add]
      simp only [List.get_eq_getElem]
      linarith
    obtain rfl : a = a' := by simpa using haa
    have hpp : p = p' := by
      by_contra hne
      have himg : Image (supercellLattice c.lattice c.supercell) (copies c.lattice c.supercell)[p] (copies c.lattice c.supercell)[p'] :=
        ⟨t, fun k => by have := ht k; unfold Config.cell at this; linarith⟩
      have himg' : Image (supercellLattice c.lattice c.supercell) (copies c.lattice c.supercell)[p'] (copies c.lattice c.supercell)[p] := by
        refine ⟨-t, fun k => ?_⟩
        have h0 := translation_sub (supercellLattice c.lattice c.supercell) 0 t k
        rw [zero_sub] at h0
        rw [h0]
        have hz : translation (supercellLattice c.lattice c.supercell) 0 k = 0 := by simp [translation]
        rw [hz]
        have := ht k
        unfold Config.cell at this
        linarith
      rcases lt_or_gt_of_ne hne with hlt | hlt
      · exact (List.pairwise_iff_getElem.mp hp2 p p' hp hp' hlt) himg
      · exact (List.pairwise_iff_getElem.mp hp2 p' p hp' hp hlt) himg'
    subst hpp
    exact Fin.ext (e0.trans e0'.symm)

end Jaqmc.SolidEnergy.Props
