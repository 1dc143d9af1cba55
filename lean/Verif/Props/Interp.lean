import Verif.Spec.Interp
/-! # The reference-counted interpreter: C43 -/
namespace Jaqmc.Interp.Props
open Jaqmc.Interp Jaqmc.Interp.Spec

variable {V E : Type}

@[simp] theorem upd_self {A : Type} (f : Nat → A) (x : Nat) (a : A) : upd f x a x = a := by simp [upd]
theorem upd_ne {A : Type} (f : Nat → A) {x y : Nat} (a : A) (h : y ≠ x) : upd f x a y = f y := by simp [upd, h]

/-- The environment holds exactly the values that may still be asked for. -/
def Agrees (s : Env V) (m : Nat → Option V) : Prop := ∀ x, s.env x = if s.counter x > 0 then m x else none

theorem write_agrees (s : Env V) (m : Nat → Option V) (h : Agrees s m) (x : Nat) (v : V) :
    Agrees (write s x v) (fun y => if y = x then some v else m y) ∧ (write s x v).counter = s.counter := by
  unfold write
  split
  · rename_i hc
    refine ⟨fun y => ?_, rfl⟩
    dsimp only
    by_cases hy : y = x
    · subst hy; simp [hc]
    · rw [upd_ne _ _ hy, h y]; simp [hy]
  · rename_i hc
    refine ⟨fun y => ?_, rfl⟩
    by_cases hy : y = x
    · subst hy; rw [h y, if_neg hc, if_neg hc]
    · rw [h y]; simp [hy]

theorem writeMany_agrees (xs : List Nat) (vs : List V) (s : Env V) (m : Nat → Option V) (h : Agrees s m) :
    Agrees (writeMany s xs vs) (bind m xs vs) ∧ (writeMany s xs vs).counter = s.counter := by
  induction xs generalizing vs s m with
  | nil => cases vs <;> exact ⟨h, rfl⟩
  | cons x xs ih =>
    cases vs with
    | nil => exact ⟨h, rfl⟩
    | cons v vs =>
      have hw := write_agrees s m h x v
      have := ih vs (write s x v) _ hw.1
      refine ⟨this.1, ?_⟩
      have h2 := this.2
      rw [hw.2] at h2
      exact h2

theorem readMany_agrees (as : List (Atom V)) (s : Env V) (m : Nat → Option V) (h : Agrees s m)
    (hc : ∀ x, (occ x as : Int) ≤ s.counter x) :
    match (values m as : Except (Err E) (List V)) with
    | .ok vs => ∃ s', (readMany s as : Except (Err E) _) = .ok (vs, s') ∧ Agrees s' m ∧
        ∀ x, s'.counter x = s.counter x - occ x as
    | .error e => (readMany s as : Except (Err E) _) = .error e := by
  induction as generalizing s with
  | nil => exact ⟨s, rfl, h, fun x => by simp [occ]⟩
  | cons a as ih =>
    cases a with
    | lit v =>
      have := ih s h (fun x => by have := hc x; simpa [occ] using this)
      simp only [values, value, readMany, read] at this ⊢
      cases hv : (values m as : Except (Err E) (List V)) with
      | ok vs =>
        rw [hv] at this
        obtain ⟨s', h1, h2, h3⟩ := this
        refine ⟨s', ?_, h2, fun x => ?_⟩
        · show (do let (v', s) ← Except.ok (v, s); let (vs, s) ← readMany s as; return (v' :: vs, s)) = _
          simp only [Except.bind, Bind.bind, h1]; rfl
        · rw [h3]; simp [occ]
      | error e => 
        rw [hv] at this
        simp only [Bind.bind, Except.bind, this]
    | var x => 
      have hx : 0 < s.counter x := by
        have := hc x; simp [occ] at this; omega
      have henv := h x
      rw [if_pos hx] at henv
      cases hm : m x with
      | none =>
        rw [hm] at henv
        simp only [values, value, hm, readMany, read, henv, Bind.bind, Except.bind]
      | some v =>
        rw [hm] at henv
        -- the environment after the read
        obtain ⟨s1, hr, ha, hcnt⟩ : ∃ s1 : Env V, (read s (.var x) : Except (Err E) _) = .ok (v, s1) ∧ Agrees s1 m ∧
            ∀ y, s1.counter y = s.counter y - if x = y then 1 else 0 := by
          simp only [read, henv, upd_self]
          split
          · rename_i h0
            refine ⟨_, rfl, fun y => ?_, fun y => ?_⟩
            · dsimp only
              by_cases hy : y = x
              · subst hy; simp
              · simp only [upd_ne _ _ hy, h y]
            · dsimp only
              by_cases hy : y = x
              · subst hy; simp; omega
              · rw [upd_ne _ _ hy, upd_ne _ _ hy, if_neg (fun e => hy e.symm)]; omega
          · rename_i h0
            refine ⟨_, rfl, fun y => ?_, fun y => ?_⟩
            · dsimp only
              by_cases hy : y = x
              · subst hy
                simp only [upd_self]
                rw [if_pos (by omega), h y, if_pos hx]
              · simp only [upd_ne _ _ hy, h y]
            · dsimp only
              by_cases hy : y = x
              · subst hy; simp
              · rw [upd_ne _ _ hy, if_neg (fun e => hy e.symm)]; omega
        have := ih s1 ha (fun y => by
          have := hc y; rw [hcnt]; simp only [occ] at this
          split at this <;> simp_all <;> omega)
        simp only [values, value, hm, readMany]
        cases hv : (values m as : Except (Err E) (List V)) with
        | ok vs =>
          rw [hv] at this
          obtain ⟨s', h1, h2, h3⟩ := this
          refine ⟨s', ?_, h2, fun y => ?_⟩
          · simp only [hr, Bind.bind, Except.bind, h1]; rfl
          · rw [h3, hcnt]; simp only [occ]; split <;> simp <;> omega
        | error e =>
          rw [hv] at this
          simp only [hr, Bind.bind, Except.bind, this]


theorem walk_agrees (es : List (Eqn V E)) (outs : List (Atom V)) (s : Env V) (m : Nat → Option V) (h : Agrees s m)
    (hc : ∀ x, ((reads x es : Nat) : Int) ≤ s.counter x) :
    match run m es with
    | .ok m' => ∃ s', walk s es = .ok s' ∧ Agrees s' m' ∧ ∀ x, s'.counter x = s.counter x - reads x es
    | .error e => walk s es = .error e := by
  induction es generalizing s m with
  | nil => exact ⟨s, rfl, h, fun x => by simp [reads]⟩
  | cons e es ih =>
    have hr := readMany_agrees (E := E) e.invars s m h (fun x => by
      have := hc x; simp only [reads, List.map_cons, List.sum_cons] at this; push_cast at this
      have h0 : (0 : Int) ≤ ((es.map (fun e => occ x e.invars)).sum : Nat) := Int.natCast_nonneg _
      omega)
    simp only [run, walk]
    cases hv : (values m e.invars : Except (Err E) (List V)) with
    | error err =>
      rw [hv] at hr
      simp only [Bind.bind, Except.bind, hr]
    | ok vs =>
      rw [hv] at hr
      obtain ⟨s1, h1, h2, h3⟩ := hr
      simp only [Bind.bind, Except.bind, h1]
      cases he : e.eval vs with
      | error err => simp only
      | ok outs' =>
        simp only
        have hw := writeMany_agrees e.outvars outs' s1 m h2
        have := ih (writeMany s1 e.outvars outs') _ hw.1 (fun x => by
          rw [hw.2, h3]
          have := hc x; simp only [reads, List.map_cons, List.sum_cons] at this ⊢; push_cast at this
          omega)
        cases hrun : run (Spec.bind m e.outvars outs') es with
        | error err => rw [hrun] at this; exact this
        | ok m' =>
          rw [hrun] at this
          obtain ⟨s', t1, t2, t3⟩ := this
          refine ⟨s', t1, t2, fun x => ?_⟩
          rw [t3, hw.2, h3]
          simp only [reads, List.map_cons, List.sum_cons]; push_cast; omega

/-! ### The initial counters -/

theorem count_inputs (xs : List Nat) (c : Nat → Int) (x : Nat) :
    xs.foldl (fun c y => upd c y (c y + 1)) c x = c x + xs.count x := by
  induction xs generalizing c with
  | nil => simp
  | cons y xs ih =>
    rw [List.foldl_cons, ih]
    by_cases h : x = y
    · subst h; simp; omega
    · rw [upd_ne _ _ h, List.count_cons_of_ne (fun e => h e.symm)]

theorem count_atoms (as : List (Atom V)) (c : Nat → Int) (x : Nat) :
    as.foldl countRead c x = c x + occ x as := by
  induction as generalizing c with
  | nil => simp [occ]
  | cons a as ih =>
    rw [List.foldl_cons, ih]
    cases a with
    | lit v => simp [occ, countRead]
    | var y =>
      by_cases h : x = y
      · subst h; simp [occ, countRead]; omega
      · simp only [countRead, occ]; rw [upd_ne _ _ h, if_neg (fun e => h e.symm)]; simp

theorem count_eqns (es : List (Eqn V E)) (c : Nat → Int) (x : Nat) :
    es.foldl (fun c e => e.invars.foldl countRead c) c x = c x + reads x es := by
  induction es generalizing c with
  | nil => simp [reads]
  | cons e es ih =>
    rw [List.foldl_cons, ih, count_atoms]
    simp only [reads, List.map_cons, List.sum_cons]; push_cast; omega

theorem pin_outs (as : List (Atom V)) (c : Nat → Int) (x : Nat) :
    as.foldl pin c x = if occ x as = 0 then c x else int32Max := by
  induction as generalizing c with
  | nil => simp [occ]
  | cons a as ih =>
    rw [List.foldl_cons, ih]
    cases a with
    | lit v => rfl
    | var y =>
      by_cases h : x = y
      · subst h
        have h1 : occ x (Atom.var x :: as) ≠ 0 := by simp [occ]
        have h2 : pin c (Atom.var x : Atom V) x = int32Max := upd_self _ _ _
        rw [if_neg h1, h2, ite_self]
      · have h1 : occ x (Atom.var y :: as) = occ x as := by
          simp only [occ]; rw [if_neg (fun e => h e.symm)]; simp
        have h2 : pin c (Atom.var y : Atom V) x = c x := upd_ne _ _ h
        rw [h1, h2]

theorem initCounter_eq (p : Jaxpr V E) (x : Nat) :
    initCounter p x = if occ x p.outvars = 0 then ((p.invars ++ p.constvars).count x : Int) + reads x p.eqns
      else int32Max := by
  unfold initCounter
  rw [pin_outs]
  split
  · rw [count_eqns, count_inputs]; simp
  · rfl

/-- **C43** For every program, well formed or not, and all constants and arguments, the reference-counted walk and
the evaluation that keeps every value give the same outputs, or fail with the same error — provided no output variable
is read more than `2^31 - 1` times.  Afterwards the environment holds values of input, constant and output
variables only. -/
theorem c43_same (p : Jaxpr V E) (consts args : List V)
    (hlim : ∀ x, occ x p.outvars ≠ 0 → (reads x p.eqns + occ x p.outvars : Int) ≤ 2 ^ 31 - 1) :
    (evalJaxpr p consts args).map Prod.fst = eval p consts args ∧
    ∀ vs s, evalJaxpr p consts args = .ok (vs, s) → ∀ x, s.env x ≠ none →
      x ∈ p.invars ∨ x ∈ p.constvars ∨ Atom.var x ∈ p.outvars := by
  have hocc : ∀ (x : Nat) (as : List (Atom V)), occ x as ≠ 0 → Atom.var x ∈ as := by
    intro x as
    induction as with
    | nil => simp [occ]
    | cons a as ih =>
      cases a with
      | lit v => intro h; right; exact ih h
      | var y =>
        intro h
        simp only [occ] at h
        by_cases hy : y = x
        · subst hy; simp
        · rw [if_neg hy] at h; right; exact ih (by omega)
  have h0 : Agrees (⟨fun _ => none, initCounter p⟩ : Env V) (fun _ => none) := fun x => by simp
  have h1 := writeMany_agrees p.constvars consts _ _ h0
  have h2 := writeMany_agrees p.invars args _ _ h1.1
  have hcnt : (start p consts args).counter = initCounter p := by
    show (writeMany _ _ _).counter = _
    rw [h2.2, h1.2]
  have hw := walk_agrees p.eqns p.outvars (start p consts args) _ h2.1 (fun x => by
    rw [hcnt, initCounter_eq]
    split
    · have : (0 : Int) ≤ ((p.invars ++ p.constvars).count x : Nat) := Int.natCast_nonneg _
      omega
    · rename_i h; have := hlim x h; unfold int32Max; omega)
  unfold eval evalJaxpr
  cases hrun : run (Spec.bind (Spec.bind (fun _ => none) p.constvars consts) p.invars args) p.eqns with
  | error e =>
    rw [hrun] at hw
    dsimp only at hw
    simp only [Bind.bind, Except.bind, hw]
    exact ⟨rfl, fun _ _ h => by cases h⟩
  | ok m =>
    rw [hrun] at hw
    obtain ⟨s, w1, w2, w3⟩ := hw
    simp only [Bind.bind, Except.bind, w1]
    have hr := readMany_agrees (E := E) p.outvars s m w2 (fun x => by
      rw [w3, hcnt, initCounter_eq]
      split
      · rename_i h; rw [h]
        have : (0 : Int) ≤ ((p.invars ++ p.constvars).count x : Nat) := Int.natCast_nonneg _
        omega
      · rename_i h; have := hlim x h; unfold int32Max; omega)
    cases hv : (values m p.outvars : Except (Err E) (List V)) with
    | error e =>
      rw [hv] at hr
      dsimp only at hr
      rw [hr]
      exact ⟨rfl, fun _ _ h => by cases h⟩
    | ok vs =>
      rw [hv] at hr
      obtain ⟨s', r1, r2, r3⟩ := hr
      rw [r1]
      refine ⟨rfl, fun vs' s'' h x hx => ?_⟩
      cases h
      rw [r2 x] at hx
      have hpos : s'.counter x > 0 := by
        apply Decidable.byContradiction
        intro hn
        rw [if_neg hn] at hx; exact hx rfl
      rw [r3, w3, hcnt, initCounter_eq] at hpos
      by_cases ho : occ x p.outvars = 0
      · rw [if_pos ho, ho] at hpos
        have : 0 < (p.invars ++ p.constvars).count x := by omega
        have := List.count_pos_iff.1 this
        rcases List.mem_append.1 this with h | h
        · exact .inl h
        · exact .inr (.inl h)
      · exact .inr (.inr (hocc x _ ho))

/-! ### Well-formed programs -/

theorem values_covered (m : Nat → Option V) (xs : List Nat) (hm : ∀ x ∈ xs, m x ≠ none) (as : List (Atom V))
    (h : Covered xs as) : ∃ vs, (values m as : Except (Err E) (List V)) = .ok vs := by
  induction as with
  | nil => exact ⟨[], rfl⟩
  | cons a as ih =>
    obtain ⟨vs, hvs⟩ := ih (fun x hx => h x (by simp [hx]))
    cases a with
    | lit v => exact ⟨v :: vs, by simp only [values, value, Bind.bind, Except.bind, hvs]; rfl⟩
    | var x =>
      have := hm x (h x (by simp))
      cases hx : m x with
      | none => exact absurd hx this
      | some v => exact ⟨v :: vs, by simp only [values, value, hx, Bind.bind, Except.bind, hvs]; rfl⟩

theorem bind_defined (ys : List Nat) (vs : List V) (hlen : vs.length = ys.length) (m : Nat → Option V) (x : Nat)
    (h : m x ≠ none ∨ x ∈ ys) : Spec.bind m ys vs x ≠ none := by
  induction ys generalizing vs m with
  | nil => cases vs <;> simpa [Spec.bind] using h
  | cons y ys ih =>
    cases vs with
    | nil => simp at hlen
    | cons v vs =>
      simp only [Spec.bind]
      apply ih vs (by simpa using hlen)
      by_cases hx : x = y
      · left; simp [hx]
      · rcases h with h | h
        · left; simpa [hx] using h
        · right; simpa [hx] using h

/-- C43: in a well-scoped program called with the right number of values, no value is ever missing when it is read:
the walk succeeds unless an equation itself raises. -/
theorem c43_no_missing (p : Jaxpr V E) (consts args : List V) (hcl : consts.length = p.constvars.length)
    (hal : args.length = p.invars.length) (hsc : Scoped (p.constvars ++ p.invars) p.eqns p.outvars)
    (hlim : ∀ x, occ x p.outvars ≠ 0 → (reads x p.eqns + occ x p.outvars : Int) ≤ 2 ^ 31 - 1) :
    (∃ vs s, evalJaxpr p consts args = .ok (vs, s)) ∨ ∃ e, evalJaxpr p consts args = .error (.raised e) := by
  have key : ∀ (es : List (Eqn V E)) (xs : List Nat) (m : Nat → Option V), (∀ x ∈ xs, m x ≠ none) →
      Scoped xs es p.outvars →
      (∃ m' vs, run m es = .ok m' ∧ (values m' p.outvars : Except (Err E) _) = .ok vs) ∨
        ∃ e, run m es = .error (.raised e) := by
    intro es
    induction es with
    | nil =>
      intro xs m hm hs
      obtain ⟨vs, hvs⟩ := values_covered (E := E) m xs hm p.outvars hs
      exact .inl ⟨m, vs, rfl, hvs⟩
    | cons e es ih =>
      intro xs m hm hs
      obtain ⟨s1, s2, s3⟩ := hs
      obtain ⟨vs, hvs⟩ := values_covered (E := E) m xs hm e.invars s1
      simp only [run, hvs, Bind.bind, Except.bind]
      cases he : e.eval vs with
      | error err => exact .inr ⟨err, rfl⟩
      | ok o =>
        simp only
        apply ih (xs ++ e.outvars) _ _ s3
        intro x hx
        apply bind_defined _ _ (s2 vs o he)
        rcases List.mem_append.1 hx with h | h
        · exact .inl (hm x h)
        · exact .inr h
  have hsame := (c43_same p consts args hlim).1
  have := key p.eqns (p.constvars ++ p.invars) (Spec.bind (Spec.bind (fun _ => none) p.constvars consts) p.invars args)
    (fun x hx => by
      apply bind_defined _ _ hal
      rcases List.mem_append.1 hx with h | h
      · left; exact bind_defined _ _ hcl _ _ (.inr h)
      · exact .inr h) hsc
  unfold eval at hsame
  rcases this with ⟨m', vs, h1, h2⟩ | ⟨e, he⟩
  · simp only [h1, Bind.bind, Except.bind, h2] at hsame
    left
    cases hj : evalJaxpr p consts args with
    | ok r => exact ⟨r.1, r.2, rfl⟩
    | error e => rw [hj] at hsame; cases hsame
  · simp only [he, Bind.bind, Except.bind] at hsame
    right
    cases hj : evalJaxpr p consts args with
    | ok r => rw [hj] at hsame; cases hsame
    | error e' => rw [hj] at hsame; cases hsame; exact ⟨e, rfl⟩

/-- C43 is not vacuous: `z = x * y; w = z + z; return (w, x)` with an intermediate value used twice, an argument
returned, and a result that is never used. -/
example :
    let mul : List Nat → Except Unit (List Nat) := fun l => .ok [l.foldl (· * ·) 1]
    let add : List Nat → Except Unit (List Nat) := fun l => .ok [l.foldl (· + ·) 0]
    let p : Jaxpr Nat Unit := ⟨[], [0, 1], [⟨[.var 0, .var 1], [2], mul⟩, ⟨[.var 2, .var 2], [3], add⟩,
      ⟨[.var 0, .lit 7], [4], add⟩], [.var 3, .var 0]⟩
    ((evalJaxpr p [] [5, 6]).map (fun r => (r.1, (List.range 5).map r.2.env))).toOption
      = some ([60, 5], [some 5, some 6, none, some 60, none]) := by
  decide

end Jaqmc.Interp.Props
