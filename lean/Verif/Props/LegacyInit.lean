import Verif.Model.LegacyInit
import Mathlib.Tactic.Ring
import Mathlib.Tactic.Linarith
import Mathlib.Tactic.Push
import Mathlib.Algebra.BigOperators.Group.List.Lemmas
import Mathlib.Data.Rat.Defs
/-! # C129: the first electron positions of the pseudopotential examples -/

namespace Jaqmc.LegacyInit.Props
open Jaqmc.LegacyInit

variable {R : Type}

/-- Every atom comes up again and again. -/
def Fair (picks : Nat → Nat) (n : Nat) : Prop := ∀ i, i < n → ∀ t, ∃ s, t ≤ s ∧ picks s = i

/-- The number of up electrons of an assignment. -/
def ups (c : List (Int × Int)) : Int := (c.map Prod.fst).sum
/-- The number of down electrons of an assignment. -/
def downs (c : List (Int × Int)) : Int := (c.map Prod.snd).sum

theorem flip_total (c : Int × Int) : (flip c).1 + (flip c).2 = c.1 + c.2 := by
  unfold flip; split <;> simp

theorem flip_cases (c : Int × Int) : flip c = c ∨ (c.1 > 0 ∧ flip c = (c.1 - 1, c.2 + 1)) := by
  unfold flip; split
  · right; exact ⟨by assumption, rfl⟩
  · left; rfl

theorem modify_total (i : Nat) : ∀ c : List (Int × Int),
    ((c.modify i flip).map fun x => x.1 + x.2) = c.map fun x => x.1 + x.2 := by
  induction i with
  | zero => intro c; cases c with
    | nil => rfl
    | cons x r => simp [flip_total]
  | succ i ih => intro c; cases c with
    | nil => rfl
    | cons x r => simpa using ih r

theorem modify_eq (i : Nat) : ∀ c : List (Int × Int), (∀ x, c[i]? = some x → ¬ x.1 > 0) →
    c.modify i flip = c := by
  induction i with
  | zero => intro c h; cases c with
    | nil => rfl
    | cons x r =>
      have := h x rfl
      simp [flip, this]
  | succ i ih => intro c h; cases c with
    | nil => rfl
    | cons x r =>
      have := ih r (by simpa using h)
      simpa using this

theorem modify_ups (i : Nat) : ∀ c : List (Int × Int), ∀ x, c[i]? = some x → x.1 > 0 →
    ups (c.modify i flip) = ups c - 1 := by
  induction i with
  | zero => intro c y h hp; cases c with
    | nil => simp at h
    | cons x r =>
      simp only [List.getElem?_cons_zero, Option.some.injEq] at h
      subst h
      simp [flip, hp, ups]; ring
  | succ i ih => intro c y h hp; cases c with
    | nil => simp at h
    | cons x r =>
      have := ih r y (by simpa using h) hp
      simp only [ups, List.modify_succ_cons, List.map_cons, List.sum_cons] at this ⊢
      omega

theorem modify_forall (P : Int × Int → Prop) (hf : ∀ x, P x → P (flip x)) (i : Nat) :
    ∀ c : List (Int × Int), (∀ x ∈ c, P x) → ∀ x ∈ c.modify i flip, P x := by
  induction i with
  | zero => intro c h; cases c with
    | nil => simp
    | cons x r =>
      intro y hy
      simp only [List.modify_zero_cons, List.mem_cons] at hy
      rcases hy with rfl | hy
      · exact hf _ (h _ (by simp))
      · exact h _ (by simp [hy])
  | succ i ih => intro c h; cases c with
    | nil => simp
    | cons x r =>
      intro y hy
      simp only [List.modify_succ_cons, List.mem_cons] at hy
      rcases hy with rfl | hy
      · exact h _ (by simp)
      · exact ih r (fun z hz => h z (by simp [hz])) y hy

theorem ups_downs (c : List (Int × Int)) : ups c + downs c = (c.map fun x => x.1 + x.2).sum := by
  induction c with
  | nil => rfl
  | cons x r ih =>
    simp only [ups, downs, List.map_cons, List.sum_cons] at *
    omega

theorem done_iff (el : Electrons) (c : List (Int × Int)) :
    done el c = true ↔ el.isTuple = true ∧ c ≠ [] ∧ ups c = el.alpha ∧ downs c = el.beta := by
  unfold done totals ups downs
  cases c with
  | nil => simp
  | cons x r => simp

/-- Each atom's turn at a time: same length, same number of electrons at each atom, no atom gains an up
electron, and none goes below no up electron. -/
def Below (c c' : List (Int × Int)) : Prop :=
  List.Forall₂ (fun x y => y.1 + y.2 = x.1 + x.2 ∧ y.1 ≤ x.1 ∧ (0 ≤ x.1 → 0 ≤ y.1)) c c'

theorem below_refl (c : List (Int × Int)) : Below c c := by
  induction c with
  | nil => exact .nil
  | cons x r ih => exact .cons ⟨rfl, le_refl _, id⟩ ih

theorem below_modify (i : Nat) : ∀ c c' : List (Int × Int), Below c c' → Below c (c'.modify i flip) := by
  have key : ∀ x y : Int × Int, (y.1 + y.2 = x.1 + x.2 ∧ y.1 ≤ x.1 ∧ (0 ≤ x.1 → 0 ≤ y.1)) →
      ((flip y).1 + (flip y).2 = x.1 + x.2 ∧ (flip y).1 ≤ x.1 ∧ (0 ≤ x.1 → 0 ≤ (flip y).1)) := by
    intro x y ⟨h1, h2, h3⟩
    refine ⟨(flip_total y).trans h1, ?_, ?_⟩
    · rcases flip_cases y with h | ⟨hp, h⟩ <;> rw [h]
      · exact h2
      · show y.1 - 1 ≤ x.1; omega
    · rcases flip_cases y with h | ⟨hp, h⟩ <;> rw [h]
      · exact h3
      · intro _; show 0 ≤ y.1 - 1; omega
  induction i with
  | zero => intro c c' h; cases h with
    | nil => exact .nil
    | cons hxy hr => exact .cons (key _ _ hxy) hr
  | succ i ih => intro c c' h; cases h with
    | nil => exact .nil
    | cons hxy hr => exact .cons hxy (ih _ _ hr)

theorem loop_ok (el : Electrons) (picks : Nat → Nat) (c₀ : List (Int × Int)) : ∀ fuel t c r,
    Below c₀ c → loop el picks fuel t c = some (.ok r) →
    el.isTuple = true ∧ ups r = el.alpha ∧ downs r = el.beta ∧ Below c₀ r := by
  intro fuel
  induction fuel with
  | zero => intro t c r _ h; simp [loop] at h
  | succ k ih =>
    intro t c r hb h
    unfold loop at h
    by_cases hd : done el c = true
    · rw [if_pos hd] at h
      cases h
      obtain ⟨h1, _, h2, h3⟩ := (done_iff el c).1 hd
      exact ⟨h1, h2, h3, hb⟩
    · rw [if_neg hd] at h
      by_cases he : c.isEmpty = true
      · rw [if_pos he] at h; cases h
      · rw [if_neg he] at h
        exact ih _ _ _ (below_modify _ _ _ hb) h

theorem assign_eq (electrons : Electrons) (molecule : List (Atom R)) (given : Option (List (Int × Int)))
    (picks : Nat → Nat) (fuel : Nat)
    (hcase : (molecule.map Atom.charge).sum = electrons.alpha + electrons.beta ∨ given ≠ none) :
    assign electrons molecule given picks fuel =
      if ((given.getD (derived molecule)).map fun c => c.1 + c.2).sum ≠ electrons.alpha + electrons.beta then
        some (.error .assertion)
      else loop electrons picks fuel 0 (given.getD (derived molecule)) := by
  unfold assign
  rw [if_neg (fun hh => hcase.elim (fun hc => hh.1 hc) (fun hc => hc hh.2))]
  cases given <;> rfl

/-- **C129.** Whatever numbers are drawn: an assignment with which `init_electrons` continues has the
requested numbers of up and down electrons (for a neutral molecule or with given assignments), no atom has
changed its number of electrons, none has gained an up electron, and none has been left with fewer than
none. -/
theorem c129_assigned (electrons : Electrons) (molecule : List (Atom R)) (given : Option (List (Int × Int)))
    (picks : Nat → Nat) (fuel : Nat) (configs : List (Int × Int))
    (hcase : (molecule.map Atom.charge).sum = electrons.alpha + electrons.beta ∨ given ≠ none)
    (h : assign electrons molecule given picks fuel = some (.ok configs)) :
    (configs.map Prod.fst).sum = electrons.alpha ∧ (configs.map Prod.snd).sum = electrons.beta ∧
    Below (given.getD (derived molecule)) configs := by
  rw [assign_eq _ _ _ _ _ hcase] at h
  by_cases ha : ((given.getD (derived molecule)).map fun c => c.1 + c.2).sum ≠ electrons.alpha + electrons.beta
  · rw [if_pos ha] at h; cases h
  · rw [if_neg ha] at h
    obtain ⟨_, h1, h2, h3⟩ := loop_ok electrons picks _ fuel 0 _ _ (below_refl _) h
    exact ⟨h1, h2, h3⟩

/-- **C129.** A single charged atom gets exactly the requested electrons; a charged molecule of several
atoms (or none) is refused. -/
theorem c129_charged (electrons : Electrons) (molecule : List (Atom R)) (picks : Nat → Nat) (fuel : Nat)
    (hcharge : (molecule.map Atom.charge).sum ≠ electrons.alpha + electrons.beta) :
    assign electrons molecule none picks fuel
      = if molecule.length = 1 then some (.ok [(electrons.alpha, electrons.beta)])
        else some (.error .notImplemented) := by
  unfold assign
  rw [if_pos ⟨hcharge, rfl⟩]

/-- **C129.** The derived assignment: a neutral element without the core electrons that its pseudopotential
replaces.  If their number is even each atom gets as many electrons as its effective charge. -/
theorem c129_derived (molecule : List (Atom R)) (helem : ∀ a ∈ molecule, a.nalpha + a.nbeta = a.number)
    (heven : ∀ a ∈ molecule, 2 ∣ a.number - a.charge) :
    (derived molecule).map (fun c => c.1 + c.2) = molecule.map Atom.charge ∧
    (derived molecule).map (fun c => c.1 - c.2) = molecule.map fun a => a.nalpha - a.nbeta := by
  unfold derived
  rw [List.map_map, List.map_map]
  constructor
  · refine List.map_congr_left fun a ha => ?_
    have h1 := helem a ha
    obtain ⟨k, hk⟩ := heven a ha
    simp only [Function.comp_apply, hk]
    omega
  · refine List.map_congr_left fun a ha => ?_
    simp only [Function.comp_apply]
    omega

/-- **C129.** With an odd number of replaced core electrons anywhere, a neutral molecule fails the
assertion. -/
theorem c129_odd_core (electrons : Electrons) (molecule : List (Atom R)) (picks : Nat → Nat) (fuel : Nat)
    (helem : ∀ a ∈ molecule, a.nalpha + a.nbeta = a.number)
    (hneutral : (molecule.map Atom.charge).sum = electrons.alpha + electrons.beta)
    (hodd : ∃ a ∈ molecule, ¬ 2 ∣ a.number - a.charge) :
    assign electrons molecule none picks fuel = some (.error .assertion) := by
  unfold assign
  rw [if_neg (by simp [hneutral])]
  dsimp only
  rw [if_pos]
  rw [← hneutral]
  refine ne_of_gt ?_
  unfold derived
  rw [List.map_map]
  have aux : ∀ m : List (Atom R), (∀ a ∈ m, a.nalpha + a.nbeta = a.number) →
      (m.map Atom.charge).sum ≤
        (m.map ((fun c : Int × Int => c.1 + c.2) ∘
          fun a => (a.nalpha - (a.number - a.charge) / 2, a.nbeta - (a.number - a.charge) / 2))).sum := by
    intro m hm
    induction m with
    | nil => simp
    | cons a r ih =>
      have h1 := hm a (by simp)
      have h2 := ih fun x hx => hm x (by simp [hx])
      simp only [List.map_cons, List.sum_cons, Function.comp_apply] at h2 ⊢
      omega
  clear hneutral
  induction molecule with
  | nil => obtain ⟨a, ha, _⟩ := hodd; simp at ha
  | cons a r ih =>
    have h1 := helem a (by simp)
    have h2 := aux r fun x hx => helem x (by simp [hx])
    obtain ⟨b, hb, hbo⟩ := hodd
    simp only [List.map_cons, List.sum_cons, Function.comp_apply] at h2 ⊢
    rcases List.mem_cons.1 hb with rfl | hb
    · omega
    · have h3 := ih (fun x hx => helem x (by simp [hx])) ⟨b, hb, hbo⟩
      omega

theorem sum_min_modify (i : Nat) : ∀ c : List (Int × Int),
    ((c.modify i flip).map fun x => min x.1 0) = c.map fun x => min x.1 0 := by
  have key : ∀ x : Int × Int, min (flip x).1 0 = min x.1 0 := by
    intro x
    rcases flip_cases x with h | ⟨hp, h⟩ <;> rw [h]
    show min (x.1 - 1) 0 = min x.1 0
    omega
  induction i with
  | zero => intro c; cases c with
    | nil => rfl
    | cons x r => simp [key]
  | succ i ih => intro c; cases c with
    | nil => rfl
    | cons x r => simpa using ih r

theorem exists_up (c : List (Int × Int)) (h : (c.map fun x => min x.1 0).sum < ups c) :
    ∃ i x, i < c.length ∧ c[i]? = some x ∧ x.1 > 0 := by
  induction c with
  | nil => simp [ups] at h
  | cons x r ih =>
    by_cases hx : x.1 > 0
    · exact ⟨0, x, by simp, rfl, hx⟩
    · have : (r.map fun x => min x.1 0).sum < ups r := by
        simp only [ups, List.map_cons, List.sum_cons] at h ⊢
        omega
      obtain ⟨i, y, hi, hy, hp⟩ := ih this
      exact ⟨i + 1, y, by simpa using hi, by simpa using hy, hp⟩

theorem loop_ends (el : Electrons) (ht : el.isTuple = true) (picks : Nat → Nat) (n : Nat) (hn : 0 < n)
    (hf : Fair picks n) : ∀ (d : Nat) (t : Nat) (c : List (Int × Int)), c.length = n →
    ups c + downs c = el.alpha + el.beta → ups c = el.alpha + d →
    (c.map fun x => min x.1 0).sum ≤ el.alpha → ∃ fuel r, loop el picks fuel t c = some (.ok r) := by
  intro d
  induction d with
  | zero =>
    intro t c hl hs hd hm
    refine ⟨1, c, ?_⟩
    have hd' : done el c = true := (done_iff el c).2
      ⟨ht, by rintro rfl; simp at hl; omega, by simpa using hd, by push_cast at hd; omega⟩
    unfold loop
    rw [if_pos hd']
  | succ d ih =>
    intro t c hl hs hd hm
    obtain ⟨i, x, hi, hx, hp⟩ := exists_up c (by push_cast at hd; omega)
    obtain ⟨s, hts, hpick⟩ := hf i (hl ▸ hi) t
    obtain ⟨g, rfl⟩ := Nat.exists_eq_add_of_le hts
    clear hts
    induction g generalizing t with
    | zero =>
      rw [Nat.add_zero] at hpick
      obtain ⟨fuel, r, hr⟩ := ih (t + 1) (c.modify (picks t) flip) (by simpa using hl)
        (by rw [ups_downs, modify_total, ← ups_downs]; exact hs)
        (by rw [hpick, modify_ups i c x hx hp, hd]; push_cast; ring)
        (by rw [sum_min_modify]; exact hm)
      refine ⟨fuel + 1, r, ?_⟩
      unfold loop
      rw [if_neg (by intro h; have := ((done_iff el c).1 h).2.2.1; push_cast at hd; omega), if_neg, hr]
      simp only [List.isEmpty_iff]; rintro rfl; simp at hl; omega
    | succ g ihg =>
      have hstep : ∀ c' : List (Int × Int), (∃ fuel r, loop el picks fuel (t + 1) (c.modify (picks t) flip) = some (.ok r)) →
          ∃ fuel r, loop el picks fuel t c = some (.ok r) := by
        rintro _ ⟨fuel, r, hr⟩
        refine ⟨fuel + 1, r, ?_⟩
        unfold loop
        rw [if_neg (by intro h; have := ((done_iff el c).1 h).2.2.1; push_cast at hd; omega), if_neg, hr]
        simp only [List.isEmpty_iff]; rintro rfl; simp at hl; omega
      refine hstep c ?_
      by_cases hy : ∃ y, c[picks t]? = some y ∧ y.1 > 0
      · obtain ⟨y, hy, hyp⟩ := hy
        exact ih (t + 1) (c.modify (picks t) flip) (by simpa using hl)
          (by rw [ups_downs, modify_total, ← ups_downs]; exact hs)
          (by rw [modify_ups _ c y hy hyp, hd]; push_cast; ring)
          (by rw [sum_min_modify]; exact hm)
      · rw [modify_eq _ c (fun y hy1 hy2 => hy ⟨y, hy1, hy2⟩)]
        exact ihg (t + 1) (by rw [← hpick]; congr 1; omega)

/-- **C129.** The assignment ends: if `electrons` is a tuple, the assignment has at least as many up
electrons as requested, no atom has a negative number of them, the numbers of electrons agree and every atom
comes up again and again, then some assignment is reached. -/
theorem c129_ends (electrons : Electrons) (molecule : List (Atom R)) (given : Option (List (Int × Int)))
    (picks : Nat → Nat) (htuple : electrons.isTuple = true)
    (hcase : (molecule.map Atom.charge).sum = electrons.alpha + electrons.beta ∨ given ≠ none)
    (hne : given.getD (derived molecule) ≠ [])
    (htotal : ((given.getD (derived molecule)).map fun c => c.1 + c.2).sum = electrons.alpha + electrons.beta)
    (hpos : ∀ c ∈ given.getD (derived molecule), 0 ≤ c.1) (hreq : 0 ≤ electrons.alpha)
    (hup : electrons.alpha ≤ ((given.getD (derived molecule)).map Prod.fst).sum)
    (hfair : Fair picks (given.getD (derived molecule)).length) :
    ∃ fuel configs, assign electrons molecule given picks fuel = some (.ok configs) := by
  simp only [assign_eq _ _ _ _ _ hcase]
  simp only [if_neg (not_not.2 htotal)]
  generalize given.getD (derived molecule) = c at *
  obtain ⟨d, hd⟩ := Int.le.dest hup
  refine loop_ends electrons htuple picks c.length (List.length_pos_iff.2 hne) hfair d 0 c rfl
    ((ups_downs c).trans htotal) hd.symm ?_
  have : c.map (fun x => min x.1 0) = c.map fun _ => (0 : Int) :=
    List.map_congr_left fun x hx => min_eq_right (hpos x hx)
  rw [this]
  simpa using hreq

/-- The number of up electrons never grows. -/
theorem modify_ups_le (i : Nat) (c : List (Int × Int)) : ups (c.modify i flip) ≤ ups c := by
  by_cases h : ∃ y, c[i]? = some y ∧ y.1 > 0
  · obtain ⟨y, hy, hp⟩ := h
    rw [modify_ups i c y hy hp]; omega
  · rw [modify_eq i c fun y h1 h2 => h ⟨y, h1, h2⟩]

theorem loop_never (el : Electrons) (picks : Nat → Nat) : ∀ fuel t c, c ≠ [] →
    (el.isTuple = false ∨ ups c < el.alpha) → loop el picks fuel t c = none := by
  intro fuel
  induction fuel with
  | zero => intros; rfl
  | succ k ih =>
    intro t c hne h
    unfold loop
    rw [if_neg, if_neg (by simpa using hne)]
    · refine ih _ _ ?_ ?_
      · intro h0
        have := congrArg List.length h0
        simp at this
        exact hne this
      · rcases h with h | h
        · exact .inl h
        · exact .inr (lt_of_le_of_lt (modify_ups_le _ _) h)
    · intro hd
      obtain ⟨h1, _, h2, _⟩ := (done_iff el c).1 hd
      rcases h with h | h
      · rw [h1] at h; cases h
      · omega

/-- **C129 (finding).** The assignment only ever turns up electrons down: if more up electrons are requested
than the assignment starts with, `init_electrons` never returns, whatever numbers are drawn.  It never
returns either if the two numbers are not in a tuple. -/
theorem c129_never (electrons : Electrons) (molecule : List (Atom R)) (given : Option (List (Int × Int)))
    (picks : Nat → Nat)
    (hcase : (molecule.map Atom.charge).sum = electrons.alpha + electrons.beta ∨ given ≠ none)
    (hne : given.getD (derived molecule) ≠ [])
    (htotal : ((given.getD (derived molecule)).map fun c => c.1 + c.2).sum = electrons.alpha + electrons.beta)
    (h : ((given.getD (derived molecule)).map Prod.fst).sum < electrons.alpha ∨ electrons.isTuple = false) :
    ∀ fuel, assign electrons molecule given picks fuel = none := by
  intro fuel
  rw [assign_eq _ _ _ _ _ hcase, if_neg (not_not.2 htotal)]
  exact loop_never electrons picks fuel 0 _ hne h.symm

/-- **C129.** Assignments that already agree with the request are used as they are. -/
theorem c129_kept (electrons : Electrons) (molecule : List (Atom R)) (g : List (Int × Int))
    (picks : Nat → Nat) (htuple : electrons.isTuple = true) (hne : g ≠ [])
    (hup : (g.map Prod.fst).sum = electrons.alpha) (hdown : (g.map Prod.snd).sum = electrons.beta) (fuel : Nat) :
    assign electrons molecule (some g) picks (fuel + 1) = some (.ok g) := by
  unfold assign
  rw [if_neg (by simp)]
  dsimp only
  rw [if_neg]
  · unfold loop
    rw [if_pos ((done_iff _ _).2 ⟨htuple, hne, hup, hdown⟩)]
  · have := ups_downs g
    unfold ups downs at this
    rw [not_not, ← this, hup, hdown]

theorem spinCentres_eq (configs : List (Int × Int)) (count : Int × Int → Int)
    (hpos : ∀ c ∈ configs, 0 ≤ count c) : ∀ (molecule : List (Atom R)) (j : Nat),
    j + molecule.length ≤ configs.length →
    spinCentres configs count j molecule = .ok ((molecule.zip (configs.drop j)).flatMap fun p =>
      (List.replicate (count p.2).toNat p.1.coords).flatten) := by
  intro molecule
  induction molecule with
  | nil => intro j _; rfl
  | cons a r ih =>
    intro j hj
    simp only [List.length_cons] at hj
    have hlt : j < configs.length := by omega
    unfold spinCentres
    rw [List.getElem?_eq_getElem hlt]
    dsimp only
    rw [ih (j + 1) (by omega), List.drop_eq_getElem_cons hlt]
    unfold tile
    rw [if_neg (by have := hpos _ (List.getElem_mem hlt); omega)]
    rfl

theorem length_flatMap (count : Int × Int → Int) : ∀ (molecule : List (Atom R)) (configs : List (Int × Int)),
    (∀ c ∈ configs, 0 ≤ count c) → (∀ a ∈ molecule, a.coords.length = 3) →
    (((molecule.zip configs).flatMap fun p =>
      (List.replicate (count p.2).toNat p.1.coords).flatten).length : Int)
      = 3 * ((configs.take molecule.length).map count).sum := by
  intro molecule
  induction molecule with
  | nil => intros; simp
  | cons a r ih =>
    intro configs hpos h3
    cases configs with
    | nil => simp
    | cons c cs =>
      have h1 := ih cs (fun x hx => hpos x (by simp [hx])) fun x hx => h3 x (by simp [hx])
      have h2 := hpos c (by simp)
      simp only [List.zip_cons_cons, List.flatMap_cons, List.length_append, List.length_flatten,
        List.map_replicate, h3 a (by simp), List.length_cons, List.take_succ_cons, List.map_cons,
        List.sum_cons, List.sum_replicate_nat, Nat.cast_add, h1, Nat.cast_mul, Int.toNat_of_nonneg h2]
      push_cast
      ring

/-- **C129.** The positions: from an assignment without negative numbers that covers every atom, each walker
gets first the up electrons, atom by atom, then the down electrons, atom by atom, each a Gaussian step times
the width away from its atom; there are three coordinates for each electron assigned to an atom of the
molecule. -/
theorem c129_positions [Ring R] (molecule : List (Atom R)) (electrons : Electrons) (batch : Nat) (width : R)
    (given : Option (List (Int × Int))) (picks : Nat → Nat) (normal : Nat → Nat → R) (fuel : Nat)
    (configs : List (Int × Int)) (hne : molecule ≠ [])
    (h : assign electrons molecule given picks fuel = some (.ok configs))
    (hlen : molecule.length ≤ configs.length) (hpos : ∀ c ∈ configs, 0 ≤ c.1 ∧ 0 ≤ c.2)
    (h3 : ∀ a ∈ molecule, a.coords.length = 3) :
    ∃ up down : List R,
      up = ((molecule.zip configs).flatMap fun p => (List.replicate p.2.1.toNat p.1.coords).flatten) ∧
      down = ((molecule.zip configs).flatMap fun p => (List.replicate p.2.2.toNat p.1.coords).flatten) ∧
      (up.length : Int) = 3 * ((configs.take molecule.length).map Prod.fst).sum ∧
      (down.length : Int) = 3 * ((configs.take molecule.length).map Prod.snd).sum ∧
      ∃ rows, initElectrons molecule electrons batch width given picks normal fuel = some (.ok rows) ∧
        rows.length = batch ∧
        ∀ b (hb : b < rows.length), (rows[b]).length = (up ++ down).length ∧
          ∀ k (hk : k < (rows[b]).length) (hk' : k < (up ++ down).length),
            (rows[b])[k] = (up ++ down)[k] + width * normal b k := by
  refine ⟨_, _, rfl, rfl, length_flatMap Prod.fst molecule configs (fun c hc => (hpos c hc).1) h3,
    length_flatMap Prod.snd molecule configs (fun c hc => (hpos c hc).2) h3, ?_⟩
  have e1 := spinCentres_eq configs Prod.fst (fun c hc => (hpos c hc).1) molecule 0 (by simpa using hlen)
  have e2 := spinCentres_eq configs Prod.snd (fun c hc => (hpos c hc).2) molecule 0 (by simpa using hlen)
  generalize hU : ((molecule.zip configs).flatMap fun p => (List.replicate p.2.1.toNat p.1.coords).flatten) = U
  generalize hD : ((molecule.zip configs).flatMap fun p => (List.replicate p.2.2.toNat p.1.coords).flatten) = D
  refine ⟨positions (U ++ D) width batch normal, ?_, ?_, ?_⟩
  · unfold initElectrons
    rw [h]
    show some ((do
      let centre ← centres configs molecule
      return positions centre width batch normal) : Except Err _) = _
    unfold centres
    rw [e1, e2, List.drop_zero, hU, hD]
    have : molecule.isEmpty = false := by simpa using hne
    rw [this]
    rfl
  · simp [positions]
  · intro b hb
    refine ⟨by simp [positions], ?_⟩
    intro k hk hk'
    simp [positions]

/-- **C129.** So with one assignment per atom each walker has three coordinates for each requested
electron, the up electrons first. -/
theorem c129_length [Ring R] (molecule : List (Atom R)) (electrons : Electrons) (batch : Nat) (width : R)
    (given : Option (List (Int × Int))) (picks : Nat → Nat) (normal : Nat → Nat → R) (fuel : Nat)
    (configs : List (Int × Int)) (hne : molecule ≠ [])
    (hcase : (molecule.map Atom.charge).sum = electrons.alpha + electrons.beta ∨ given ≠ none)
    (h : assign electrons molecule given picks fuel = some (.ok configs))
    (hlen : configs.length = molecule.length) (hpos : ∀ c ∈ configs, 0 ≤ c.1 ∧ 0 ≤ c.2)
    (h3 : ∀ a ∈ molecule, a.coords.length = 3) :
    ∃ rows, initElectrons molecule electrons batch width given picks normal fuel = some (.ok rows) ∧
      rows.length = batch ∧ ∀ row ∈ rows, (row.length : Int) = 3 * (electrons.alpha + electrons.beta) := by
  obtain ⟨up, down, _, _, hu, hd, rows, hr, hb, hrow⟩ :=
    c129_positions molecule electrons batch width given picks normal fuel configs hne h (le_of_eq hlen.symm)
      hpos h3
  refine ⟨rows, hr, hb, ?_⟩
  intro row hmem
  obtain ⟨b, hb', rfl⟩ := List.mem_iff_getElem.1 hmem
  obtain ⟨h1, h2, _⟩ := c129_assigned electrons molecule given picks fuel configs hcase h
  rw [← hlen, List.take_length, h1] at hu
  rw [← hlen, List.take_length, h2] at hd
  rw [(hrow b hb').1, List.length_append]
  push_cast
  omega

/-- An oxygen atom. -/
def oxygen : Atom Rat := ⟨5, 3, 8, 8, [1, 2, 3]⟩
/-- A nitrogen atom with its two core electrons replaced. -/
def nitrogen : Atom Rat := ⟨5, 2, 7, 5, [0, 0, 1]⟩
/-- A helium atom. -/
def helium : Atom Rat := ⟨1, 1, 2, 2, [0, 0, 1]⟩

/-- The oxygen molecule needs one flip, the nitrogen molecule below needs three. -/
example : assign ⟨9, 7, true⟩ [oxygen, oxygen] none (fun t => t % 2) 5 = some (.ok [(4, 4), (5, 3)]) := by
  decide +kernel
example : assign ⟨5, 5, true⟩ [nitrogen, nitrogen] none (fun t => t % 2) 5 = some (.ok [(2, 3), (3, 2)]) := by
  decide +kernel
example : ∃ fuel configs, assign ⟨5, 5, true⟩ [nitrogen, nitrogen] none (fun t => t % 2) fuel
    = some (.ok configs) :=
  c129_ends _ _ _ _ rfl (.inl (by decide)) (by decide) (by decide) (by decide) (by decide) (by decide)
    (by
      intro i hi t
      simp only [derived, Option.getD_none, List.length_map, List.length_cons, List.length_nil] at hi
      exact ⟨2 * t + i, by omega, by show (2 * t + i) % 2 = i; omega⟩)
/-- Two helium atoms with three up electrons: never. -/
example (picks : Nat → Nat) : ∀ fuel, assign ⟨3, 1, true⟩ [helium, helium] none picks fuel = none :=
  c129_never _ _ _ _ (.inl (by decide)) (by decide) (by decide) (.inl (by decide))
/-- The hydrogen-like request as a list: never. -/
example (picks : Nat → Nat) : ∀ fuel, assign ⟨2, 2, false⟩ [helium, helium] none picks fuel = none :=
  c129_never _ _ _ _ (.inl (by decide)) (by decide) (by decide) (.inr rfl)
/-- One core electron replaced. -/
example (picks : Nat → Nat) (fuel : Nat) :
    assign ⟨3, 1, true⟩ [(⟨3, 2, 5, 4, [0, 0, 0]⟩ : Atom Rat)] none picks fuel = some (.error .assertion) :=
  c129_odd_core _ _ _ _ (by decide) (by decide) ⟨_, List.mem_singleton.2 rfl, by decide⟩
example : derived [nitrogen] = [(4, 1)] := by decide
/-- **C129 (finding).** More given assignments than atoms: the electrons of the others are not placed. -/
theorem c129_extra_dropped :
    initElectrons [helium] ⟨2, 2, true⟩ 1 0 (some [(1, 1), (1, 1)]) (fun _ => 0) (fun _ _ => 0) 1
      = some (.ok [[0, 0, 1, 0, 0, 1]]) := by decide +kernel
example : ∃ rows, initElectrons [nitrogen, nitrogen] ⟨5, 5, true⟩ 2 1 none (fun t => t % 2) (fun b k => b + k) 5
      = some (.ok rows) ∧ rows.length = 2 ∧ ∀ row ∈ rows, (row.length : Int) = 3 * (5 + 5) :=
  c129_length _ _ _ _ _ _ _ _ [(2, 3), (3, 2)] (by simp) (.inl (by decide)) (by decide +kernel) rfl (by decide)
    (by decide +kernel)

end Jaqmc.LegacyInit.Props
