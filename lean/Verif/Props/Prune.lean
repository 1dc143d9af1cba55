import Verif.Spec.Prune
import Mathlib.Tactic
/-!
C121: structural pruning of parameters.
-/
namespace Jaqmc.Prune.Props
open Jaqmc.Prune Jaqmc.Prune.Spec

variable {V : Type}

theorem addArgs_mono {act : ℕ → Bool} {args : List (Atom V)} {pos : ℕ → Bool} {v : ℕ} (h : act v = true) : addArgs act args pos v = true := by
  unfold addArgs; rw [h]; rfl

theorem addArgs_pos {act : ℕ → Bool} {args : List (Atom V)} {pos : ℕ → Bool} {p v : ℕ} (hp : pos p = true) (ha : args[p]? = some (.var v)) : addArgs act args pos v = true := by
  unfold addArgs
  rw [Bool.or_eq_true, List.any_eq_true]
  right
  refine ⟨p, ?_, ?_⟩
  · rw [List.mem_range]
    by_contra hc
    rw [List.getElem?_eq_none (by omega)] at ha
    cases ha
  · simp [hp, ha]

theorem outPositions_any (act : ℕ → Bool) (outs : List (Option ℕ)) : (List.range outs.length).any (outPositions act outs) = true ↔ ∃ p, outPositions act outs p = true := by
  rw [List.any_eq_true]
  constructor
  · rintro ⟨p, _, h⟩; exact ⟨p, h⟩
  · rintro ⟨p, h⟩
    refine ⟨p, ?_, h⟩
    rw [List.mem_range]
    by_contra hc
    unfold outPositions at h
    rw [List.getElem?_eq_none (by omega)] at h
    cases h

theorem bindVars_agree (S : ℕ → Bool) (outs : List (Option ℕ)) : ∀ (os os' : List V) (env env' : ℕ → V), (∀ v, S v = true → env v = env' v) →
    (∀ p, outPositions S outs p = true → os[p]? = os'[p]?) → ∀ v, S v = true → bindVars env outs os v = bindVars env' outs os' v := by
  induction outs with
  | nil =>
    intro os os' env env' he _ v hv
    cases os <;> cases os' <;> exact he v hv
  | cons o outs ih =>
    intro os os' env env' he hp
    have hp' : ∀ p, outPositions S outs p = true → os.tail[p]? = os'.tail[p]? := by
      intro p h
      have := hp (p + 1) (by simpa [outPositions] using h)
      cases os <;> cases os' <;> simpa using this
    cases o with
    | none =>
      intro v hv
      have := ih os.tail os'.tail env env' he hp' v hv
      have e1 : ∀ (e : ℕ → V) (l : List V), bindVars e (none :: outs) l = bindVars e outs l.tail := by
        intro e l
        cases l with
        | nil => cases outs with
          | nil => rfl
          | cons a t => cases a <;> rfl
        | cons _ _ => rfl
      rw [e1, e1]; exact this
    | some w =>
      have h0 : S w = true → os[0]? = os'[0]? := fun hw => hp 0 (by simpa [outPositions] using hw)
      have e0 : ∀ (e : ℕ → V), bindVars e (some w :: outs) [] = bindVars e outs [] := by
        intro e
        cases outs with
          | nil => rfl
          | cons a t => cases a <;> rfl
      intro v hv
      cases os with
      | nil => cases os' with
        | nil => rw [e0, e0]; exact ih [] [] env env' he hp' v hv
        | cons x xs =>
          rw [e0]
          refine ih [] xs env _ (fun u hu => ?_) hp' v hv
          split_ifs with hw
          · subst hw; simpa using h0 hu
          · exact he u hu
      | cons x xs => cases os' with
        | nil =>
          rw [e0]
          refine ih xs [] _ env' (fun u hu => ?_) hp' v hv
          split_ifs with hw
          · subst hw; simpa using h0 hu
          · exact he u hu
        | cons x' xs' =>
          refine ih xs xs' _ _ (fun u hu => ?_) hp' v hv
          split_ifs with hw
          · subst hw; simpa using h0 hu
          · exact he u hu

theorem agree_args {S : ℕ → Bool} {env env' : ℕ → V} (args : List (Atom V)) (q : ℕ → Bool) (h : ∀ v, addArgs S args q v = true → env v = env' v) :
    AgreeOn q (args.map (Atom.eval env)) (args.map (Atom.eval env')) := by
  refine ⟨by simp, fun p hp => ?_⟩
  rw [List.getElem?_map, List.getElem?_map]
  cases ha : args[p]? with
  | none => rfl
  | some a =>
    cases a with
    | var v => simp only [Option.map_some, Atom.eval]; rw [h v (addArgs_pos hp ha)]
    | lit c => rfl

variable (A : Arrays V) (κ : List ℕ → ℕ)

theorem run_length (path : List ℕ) (b : Jaxpr V) (vs : List V) : (b.run A κ path vs).length = b.outs.length := by
  cases b; simp [Jaxpr.run, Jaxpr.outs]

theorem getElem?_app3 (a b c : List V) (p : ℕ) : (a ++ b ++ c)[p]? = if p < a.length then a[p]? else if p < a.length + b.length then b[p - a.length]? else c[p - (a.length + b.length)]? := by
  split_ifs with h1 h2
  · rw [List.append_assoc, List.getElem?_append_left h1]
  · rw [List.append_assoc, List.getElem?_append_right (by omega), List.getElem?_append_left (by omega)]
  · rw [List.getElem?_append_right (by simp; omega), List.length_append]

theorem scan_fold (R pos : ℕ → Bool) (nc nk : ℕ) (b : Jaxpr V) (path : List ℕ) (hnk : nk ≤ b.outs.length)
    (ih : ∀ path vs vs', AgreeOn R vs vs' → ∀ p, pos p = true → (b.run A κ path vs)[p]? = (b.run A κ path vs')[p]?)
    (hset : ∀ j < nk, R (nc + j) = true → pos j = true) (vs vs' : List V) (hl : nc + nk ≤ vs.length) (h : AgreeOn R vs vs') (len : ℕ) :
    let f := fun (ws : List V) (st : List V × List (List V)) i =>
      ((b.run A κ (i :: path) (ws.take nc ++ st.1 ++ (ws.drop (nc + nk)).map fun x => A.slice x i)).take nk,
        st.2 ++ [(b.run A κ (i :: path) (ws.take nc ++ st.1 ++ (ws.drop (nc + nk)).map fun x => A.slice x i)).drop nk])
    let r := (List.range len).foldl (f vs) ((vs.drop nc).take nk, [])
    let r' := (List.range len).foldl (f vs') ((vs'.drop nc).take nk, [])
    r.1.length = nk ∧ r'.1.length = nk ∧ (∀ j < nk, R (nc + j) = true → r.1[j]? = r'.1[j]?) ∧ (0 < len → ∀ j < nk, pos j = true → r.1[j]? = r'.1[j]?) ∧
      ∀ j, pos (nk + j) = true → r.2.map (fun o => o.getD j A.default) = r'.2.map fun o => o.getD j A.default := by
  intro f
  have hl' : nc + nk ≤ vs'.length := h.1 ▸ hl
  induction len with
  | zero =>
    refine ⟨by simp; omega, by simp; omega, fun j hj hR => ?_, fun hc => absurd hc (lt_irrefl 0), fun j _ => rfl⟩
    simp only [List.range_zero, List.foldl_nil, List.getElem?_take, List.getElem?_drop, if_pos hj]
    exact h.2 _ hR
  | succ n ihn =>
    obtain ⟨l1, l2, c1, _, c3⟩ := ihn
    rw [List.range_succ, List.foldl_append, List.foldl_append]
    simp only [List.foldl_cons, List.foldl_nil]
    set r := (List.range n).foldl (f vs) ((vs.drop nc).take nk, []) with hr
    set r' := (List.range n).foldl (f vs') ((vs'.drop nc).take nk, []) with hr'
    have hag : AgreeOn R (vs.take nc ++ r.1 ++ (vs.drop (nc + nk)).map fun x => A.slice x n) (vs'.take nc ++ r'.1 ++ (vs'.drop (nc + nk)).map fun x => A.slice x n) := by
      refine ⟨by simp [l1, l2, h.1], fun p hp => ?_⟩
      have e := h.2 p hp
      rw [getElem?_app3, getElem?_app3]
      simp only [l1, l2, List.length_take, min_eq_left (show nc ≤ vs.length by omega), min_eq_left (show nc ≤ vs'.length by omega)]
      split_ifs with h1 h2
      · rw [List.getElem?_take, List.getElem?_take, e]
      · refine c1 (p - nc) (by omega) ?_
        rw [show nc + (p - nc) = p by omega]; exact hp
      · simp only [List.getElem?_map, List.getElem?_drop]
        rw [show nc + nk + (p - (nc + nk)) = p by omega, e]
    have ho := ih (n :: path) _ _ hag
    have hc : ∀ j < nk, pos j = true → (f vs r n).1[j]? = (f vs' r' n).1[j]? := by
      intro j hj hp
      simp only [f, List.getElem?_take, if_pos hj]
      exact ho j hp
    refine ⟨?_, ?_, fun j hj hR => hc j hj (hset j hj hR), fun _ => hc, fun j hj => ?_⟩
    · simp only [f, List.length_take, run_length]; omega
    · simp only [f, List.length_take, run_length]; omega
    · have c := c3 j hj
      simp only [List.getD_eq_getElem?_getD] at c
      simp only [f, List.map_append, c, List.map_cons, List.map_nil, List.getD_eq_getElem?_getD, List.getElem?_drop, ho (nk + j) hj]

theorem loop_fold (R : ℕ → Bool) (bn : ℕ) (b : Jaxpr V) (path : List ℕ)
    (ih : ∀ path vs vs', AgreeOn R vs vs' → ∀ p : ℕ, (b.run A κ path vs)[p]? = (b.run A κ path vs')[p]?)
    (hall : ∀ j < b.outs.length, R (bn + j) = true) (vs vs' : List V) (hl : vs.length = bn + b.outs.length) (h : AgreeOn R vs vs') (len : ℕ) :
    (List.range len).foldl (fun st i => b.run A κ (i :: path) (vs.take bn ++ st)) (vs.drop bn) =
      (List.range len).foldl (fun st i => b.run A κ (i :: path) (vs'.take bn ++ st)) (vs'.drop bn) ∧
    ((List.range len).foldl (fun st i => b.run A κ (i :: path) (vs.take bn ++ st)) (vs.drop bn)).length = b.outs.length := by
  have hl' : vs'.length = bn + b.outs.length := h.1 ▸ hl
  induction len with
  | zero =>
    refine ⟨List.ext_getElem? fun j => ?_, by simp [hl]⟩
    simp only [List.range_zero, List.foldl_nil, List.getElem?_drop]
    by_cases hj : j < b.outs.length
    · exact h.2 _ (hall j hj)
    · rw [List.getElem?_eq_none (by omega), List.getElem?_eq_none (by omega)]
  | succ n ihn =>
    rw [List.range_succ, List.foldl_append, List.foldl_append]
    simp only [List.foldl_cons, List.foldl_nil]
    rw [← ihn.1]
    refine ⟨List.ext_getElem? fun j => ih _ _ _ ⟨by simp [h.1], fun p hp => ?_⟩ j, run_length A κ _ _ _⟩
    by_cases h1 : p < bn
    · rw [List.getElem?_append_left (by simp; omega), List.getElem?_append_left (by simp; omega), List.getElem?_take, List.getElem?_take, h.2 p hp]
    · rw [List.getElem?_append_right (by simp; omega), List.getElem?_append_right (by simp; omega)]
      simp only [List.length_take, hl, hl']

mutual
theorem op_agree : (op : Op V) → (pos : ℕ → Bool) → OpSettled op pos → (path : List ℕ) → (vs vs' : List V) →
    (match op.active pos with | none => vs = vs' | some q => AgreeOn q vs vs') → ∀ p, pos p = true → (op.run A κ path vs)[p]? = (op.run A κ path vs')[p]?
  | .prim f, pos, _, path, vs, vs', h, p, hp => by
    have h : vs = vs' := by simpa [Op.active] using h
    rw [h]
  | .cond bs, pos, hs, path, vs, vs', h, p, hp => by
    simp only [OpSettled] at hs
    simp only [Op.active] at h
    simp only [Op.run]
    refine branches_agree bs pos hs path (κ path) vs.tail vs'.tail ⟨by simp [h.1], fun i hi => ?_⟩ p hp
    have := h.2 (i + 1) (by simpa using hi)
    rw [List.getElem?_tail, List.getElem?_tail]
    exact this
  | .call b, pos, hs, path, vs, vs', h, p, hp => by
    simp only [OpSettled] at hs
    simp only [Op.active] at h
    simp only [Op.run]
    exact jaxpr_agree b pos hs path vs vs' h p hp
  | .scan nc nk len b, pos, hs, path, vs, vs', h, p, hp => by
    simp only [OpSettled] at hs
    simp only [Op.active] at h
    obtain ⟨hlen, hset, hb⟩ := hs
    simp only [Op.run]
    have ih := fun path => jaxpr_agree b pos hb path
    by_cases hbad : vs.length < nc + nk ∨ b.outs.length < nk
    · rw [if_pos hbad, if_pos (by rw [← h.1]; exact hbad)]
    · rw [if_neg hbad, if_neg (by rw [← h.1]; exact hbad)]
      have hf := scan_fold A κ (b.active pos) pos nc nk b path (by omega) ih hset vs vs' (by omega) h len
      simp only at hf
      obtain ⟨l1, l2, _, c2, c3⟩ := hf
      by_cases hp1 : p < nk
      · rw [List.getElem?_append_left (by rw [l1]; exact hp1), List.getElem?_append_left (by rw [l2]; exact hp1)]
        exact c2 hlen p hp1 hp
      · rw [List.getElem?_append_right (by rw [l1]; omega), List.getElem?_append_right (by rw [l2]; omega), l1, l2, List.getElem?_map, List.getElem?_map]
        by_cases hq : p - nk < b.outs.length - nk
        · rw [List.getElem?_range hq, Option.map_some, Option.map_some, c3 (p - nk) (by rw [show nk + (p - nk) = p by omega]; exact hp)]
        · rw [List.getElem?_eq_none (by simp; omega)]; rfl
  | .loop cn bn c b, pos, hs, path, vs, vs', h, p, hp => by
    simp only [OpSettled] at hs
    simp only [Op.active] at h
    obtain ⟨rfl, hall, hout, hb⟩ := hs
    simp only [Op.run]
    have ih := fun path vs vs' hv p => jaxpr_agree b (fun _ => true) hb path vs vs' hv p rfl
    have h' : AgreeOn (b.active fun _ => true) vs vs' := ⟨h.1, fun i hi => h.2 i (by rw [Bool.or_eq_true]; exact Or.inr hi)⟩
    by_cases hbad : vs.length = 0 + bn + b.outs.length
    · rw [if_neg (not_not.mpr hbad), if_neg (by rw [← h.1]; exact not_not.mpr hbad)]
      have := (loop_fold A κ _ bn b path ih hall vs vs' (by omega) h' (κ path)).1
      simp only [List.drop_zero, Nat.zero_add]
      rw [this]
    · rw [if_pos hbad, if_pos (by rw [← h.1]; exact hbad)]

theorem jaxpr_agree : (b : Jaxpr V) → (pos : ℕ → Bool) → Settled b pos → (path : List ℕ) → (vs vs' : List V) → AgreeOn (b.active pos) vs vs' →
    ∀ p, pos p = true → (b.run A κ path vs)[p]? = (b.run A κ path vs')[p]?
  | .mk ins eqns outs, pos, hs, path, vs, vs', h, p, hp => by
    simp only [Settled] at hs
    simp only [Jaxpr.run]
    have h1 := eqns_agree eqns _ hs path 0 (bindVars (fun _ => A.default) (ins.map some) vs) (bindVars (fun _ => A.default) (ins.map some) vs')
      (bindVars_agree _ _ _ _ _ _ (fun _ _ => rfl) fun i hi => h.2 i (by
        simp only [outPositions, List.getElem?_map] at hi
        simp only [Jaxpr.active]
        revert hi
        cases ins[i]? <;> simp))
    exact (agree_args outs pos h1).2 p hp

theorem eqns_agree : (e : Eqns V) → (act : ℕ → Bool) → EqnsSettled e act → (path : List ℕ) → (n : ℕ) → (env env' : ℕ → V) → (∀ v, e.back act v = true → env v = env' v) →
    ∀ v, act v = true → e.run A κ path n env v = e.run A κ path n env' v
  | .nil, act, _, path, n, env, env', h, v, hv => by
    simp only [Eqns.run]
    exact h v (by simpa [Eqns.back] using hv)
  | .cons op args outs rest, act, hs, path, n, env, env', h, v, hv => by
    simp only [EqnsSettled] at hs
    simp only [Eqns.run]
    refine eqns_agree rest act hs.1 path (n + 1) _ _ ?_ v hv
    simp only [Eqns.back] at h
    by_cases hany : ∃ p, outPositions (rest.back act) outs p = true
    · rw [if_pos ((outPositions_any _ _).mpr hany)] at h
      have hop := op_agree op _ (hs.2 hany) (n :: path) (args.map (Atom.eval env)) (args.map (Atom.eval env'))
      cases hq : op.active (outPositions (rest.back act) outs) with
      | none =>
        rw [hq] at h hop
        refine bindVars_agree _ _ _ _ _ _ (fun u hu => h u (addArgs_mono hu)) (hop ?_)
        obtain ⟨e1, e2⟩ := agree_args args (fun _ => true) h
        exact List.ext_getElem? fun i => e2 i rfl
      | some q =>
        rw [hq] at h hop
        exact bindVars_agree _ _ _ _ _ _ (fun u hu => h u (addArgs_mono hu)) (hop (agree_args args q h))
    · rw [if_neg (fun hh => hany ((outPositions_any _ _).mp hh))] at h
      exact bindVars_agree _ _ _ _ _ _ h fun p hp => absurd ⟨p, hp⟩ hany

theorem branches_agree : (bs : Branches V) → (pos : ℕ → Bool) → BranchesSettled bs pos → (path : List ℕ) → (n : ℕ) → (vs vs' : List V) → AgreeOn (bs.active pos) vs vs' →
    ∀ p, pos p = true → (bs.run A κ path n vs)[p]? = (bs.run A κ path n vs')[p]?
  | .nil, _, _, _, _, _, _, _, _, _ => by simp [Branches.run]
  | .cons b bs, pos, hs, path, 0, vs, vs', h, p, hp => by
    simp only [BranchesSettled] at hs
    simp only [Branches.run]
    exact jaxpr_agree b pos hs.1 path vs vs' ⟨h.1, fun i hi => h.2 i (by simp [Branches.active, hi])⟩ p hp
  | .cons b bs, pos, hs, path, n + 1, vs, vs', h, p, hp => by
    simp only [BranchesSettled] at hs
    simp only [Branches.run]
    exact branches_agree bs pos hs.2 path n vs vs' ⟨h.1, fun i hi => h.2 i (by simp [Branches.active, hi])⟩ p hp
end

/-- C121 (partial): where the analysis of loops is complete (`Settled`), the outputs of the program do not depend on the pruned inputs. -/
theorem c121_sound_partial (prog : Jaxpr V) (hs : Settled prog fun _ => true) (n : ℕ) (path : List ℕ) (vs vs' : List V) (hn : vs.length = n) (hn' : vs'.length = n)
    (h : ∀ i : ℕ, (mask prog n)[i]? = some true → vs[i]? = vs'[i]?) : prog.run A κ path vs = prog.run A κ path vs' := by
  refine List.ext_getElem? fun p => jaxpr_agree A κ prog _ hs path vs vs' ⟨by omega, fun i hi => ?_⟩ p rfl
  by_cases hin : i < n
  · exact h i (by simp [mask, List.getElem?_range hin, hi])
  · rw [List.getElem?_eq_none (by omega), List.getElem?_eq_none (by omega)]

/-- Programs without loops are settled, whatever outputs are wanted. -/
theorem loopFree_settled {prog : Jaxpr V} (h : LoopFree prog) : ∀ pos, Settled prog pos := by
  suffices H : ∀ (prog : Jaxpr V), LoopFree prog → ∀ ins e outs, prog = .mk ins e outs → ∀ act, EqnsSettled e act by
    intro pos
    obtain ⟨ins, e, outs⟩ := prog
    simp only [Settled]
    exact H _ h _ _ _ rfl _
  intro prog h
  induction h with
  | done ins outs => rintro _ _ _ ⟨⟩ act; simp [EqnsSettled]
  | prim ins f args os rest outs _ ih => rintro _ _ _ ⟨⟩ act; simp only [EqnsSettled, OpSettled]; exact ⟨ih _ _ _ rfl act, fun _ => trivial⟩
  | call ins b args os rest outs hb _ ihb ih =>
    rintro _ _ _ ⟨⟩ act
    simp only [EqnsSettled, OpSettled]
    refine ⟨ih _ _ _ rfl act, fun _ => ?_⟩
    obtain ⟨bi, be, bo⟩ := b
    simp only [Settled]
    exact ihb _ _ _ rfl _
  | cond0 ins args os rest outs _ ih => rintro _ _ _ ⟨⟩ act; simp only [EqnsSettled, OpSettled, BranchesSettled]; exact ⟨ih _ _ _ rfl act, fun _ => trivial⟩
  | cond ins b bs args os rest outs hb _ ihb ih =>
    rintro _ _ _ ⟨⟩ act
    have := ih _ _ _ rfl act
    simp only [EqnsSettled, OpSettled, BranchesSettled] at this ⊢
    refine ⟨this.1, fun hh => ⟨?_, this.2 hh⟩⟩
    obtain ⟨bi, be, bo⟩ := b
    simp only [Settled]
    exact ihb _ _ _ rfl _

/-- C121: in a program without loops no output depends on a pruned input. -/
theorem c121_loop_free (prog : Jaxpr V) (hs : LoopFree prog) (n : ℕ) (path : List ℕ) (vs vs' : List V) (hn : vs.length = n) (hn' : vs'.length = n)
    (h : ∀ i : ℕ, (mask prog n)[i]? = some true → vs[i]? = vs'[i]?) : prog.run A κ path vs = prog.run A κ path vs' :=
  c121_sound_partial A κ prog (loopFree_settled hs _) n path vs vs' hn hn' h

/-- C121 (partial, for the same programs): the derivative in a direction that only moves pruned parameters is zero.  The program is the linearised function, so it maps zeros to
zeros. -/
theorem c121_zero_derivative_partial [Zero V] (prog : Jaxpr V) (hs : Settled prog fun _ => true) (n : ℕ) (path : List ℕ)
    (hlin : prog.run A κ path (List.replicate n 0) = List.replicate prog.outs.length 0) (t : List V) (hn : t.length = n)
    (h : ∀ i : ℕ, (mask prog n)[i]? = some true → t[i]? = some 0) : prog.run A κ path t = List.replicate prog.outs.length 0 := by
  rw [← hlin]
  refine c121_sound_partial A κ prog hs n path _ _ hn (by simp) fun i hi => ?_
  rw [h i hi]
  have : i < n := by
    by_contra hc
    rw [List.getElem?_eq_none (by simp [mask]; omega)] at hi
    cases hi
  rw [List.getElem?_replicate, if_pos this]

theorem addArgs_false {act : ℕ → Bool} {args : List (Atom V)} {pos : ℕ → Bool} {v : ℕ} (h : act v = false) (ha : Atom.var v ∉ args) : addArgs act args pos v = false := by
  by_contra hc
  rw [Bool.not_eq_false] at hc
  unfold addArgs at hc
  rw [h, Bool.false_or, List.any_eq_true] at hc
  obtain ⟨p, _, hq⟩ := hc
  rw [Bool.and_eq_true] at hq
  have h2 := hq.2
  cases e : args[p]? with
  | none => rw [e] at h2; simp at h2
  | some a =>
    rw [e] at h2
    cases a with
    | lit c => simp at h2
    | var w =>
      simp only [beq_iff_eq] at h2
      subst h2
      exact ha (List.mem_of_getElem? e)

theorem back_unread (v : ℕ) : (e : Eqns V) → ¬ ReadBy v e → (act : ℕ → Bool) → act v = false → e.back act v = false
  | .nil, _, act, h => by simpa [Eqns.back] using h
  | .cons op args outs rest, hr, act, h => by
    simp only [ReadBy, not_or] at hr
    have ih := back_unread v rest hr.2 act h
    simp only [Eqns.back]
    split_ifs
    · cases op.active (outPositions (rest.back act) outs)
      · exact addArgs_false ih hr.1
      · exact addArgs_false ih hr.1
    · exact ih

/-- C121: an input that no equation reads and that is not an output is pruned. -/
theorem c121_unread (ins : List ℕ) (e : Eqns V) (outs : List (Atom V)) (n i v : ℕ) (hi : ins[i]? = some v) (hr : ¬ ReadBy v e) (ho : Atom.var v ∉ outs) (hin : i < n) :
    (mask (.mk ins e outs) n)[i]? = some false := by
  have := back_unread v e hr (addArgs (fun _ => false) outs fun _ => true) (addArgs_false rfl ho)
  simp [mask, List.getElem?_range hin, Jaxpr.active, hi, this]

theorem leafIndices_ge (leaves : List (ℕ × Bool)) : ∀ start, ∀ i ∈ leafIndices start leaves, start ≤ i := by
  induction leaves with
  | nil => intro s i hi; simp [leafIndices] at hi
  | cons l ls ih =>
    intro s i hi
    obtain ⟨sz, on⟩ := l
    simp only [leafIndices, List.mem_append] at hi
    rcases hi with hi | hi
    · cases on <;> simp at hi
      obtain ⟨a, _, rfl⟩ := hi; omega
    · have := ih _ i hi; omega

theorem leafIndices_sorted (leaves : List (ℕ × Bool)) : ∀ start, (leafIndices start leaves).Pairwise (· < ·) := by
  induction leaves with
  | nil => intro s; simp [leafIndices]
  | cons l ls ih =>
    intro s
    obtain ⟨sz, on⟩ := l
    simp only [leafIndices]
    rw [List.pairwise_append]
    refine ⟨?_, ih _, fun a ha b hb => ?_⟩
    · cases on
      · simp
      · simp only [if_true, List.pairwise_map]
        exact List.pairwise_lt_range.imp fun h => by omega
    · have := leafIndices_ge ls _ b hb
      cases on <;> simp at ha
      obtain ⟨c, hc, rfl⟩ := ha; omega

theorem mem_leafIndices (leaves : List (ℕ × Bool)) : ∀ start i, i ∈ leafIndices start leaves ↔
    ∃ l size, leaves[l]? = some (size, true) ∧ start + ((leaves.take l).map Prod.fst).sum ≤ i ∧ i < start + ((leaves.take l).map Prod.fst).sum + size := by
  induction leaves with
  | nil => intro s i; simp [leafIndices]
  | cons l ls ih =>
    intro s i
    obtain ⟨sz, on⟩ := l
    simp only [leafIndices, List.mem_append, ih]
    constructor
    · rintro (h | ⟨l, z, h1, h2, h3⟩)
      · cases on <;> simp at h
        obtain ⟨a, ha, rfl⟩ := h
        exact ⟨0, sz, rfl, by simp, by simpa using ha⟩
      · exact ⟨l + 1, z, by simpa using h1, by simp [-List.map_take]; omega, by simp [-List.map_take]; omega⟩
    · rintro ⟨l, z, h1, h2, h3⟩
      cases l with
      | zero =>
        left
        simp at h1 h2 h3
        obtain ⟨rfl, rfl⟩ := h1
        simp only [if_true, List.mem_map, List.mem_range]
        exact ⟨i - s, by omega, by omega⟩
      | succ l =>
        right
        simp [-List.map_take] at h1 h2 h3
        exact ⟨l, z, h1, by omega, by omega⟩

/-- C121: the flat indices are increasing, hence without repetition, and are exactly the entries of the active leaves. -/
theorem c121_indices (leaves : List (ℕ × Bool)) : (leafIndices 0 leaves).Pairwise (· < ·) ∧ ∀ i, i ∈ leafIndices 0 leaves ↔ InActiveLeaf leaves i := by
  refine ⟨leafIndices_sorted leaves 0, fun i => ?_⟩
  rw [mem_leafIndices]
  simp [InActiveLeaf]

example : leafIndices 0 [(2, true), (3, false), (0, true), (2, true)] = [0, 1, 5, 6] := by decide

/-! ### The programs for which pruning loses a parameter -/

/-- Arrays of integers, of which the examples use no slices. -/
def ints : Arrays ℤ := ⟨0, fun x _ => x, List.sum⟩

/-- Addition of the arguments. -/
def addOp : Op ℤ := .prim fun vs => [vs.sum]

/-- One step with constant `p` and carried `(c₀, c₁)`: `(c₀ + c₁, p)`. -/
def stepBody : Jaxpr ℤ := .mk [0, 1, 2] (.cons addOp [.var 1, .var 2] [some 3] .nil) [.var 3, .var 0]

/-- `scan` of that step twice from zero with constant the input; its first carried value is the output. -/
def scanProg : Jaxpr ℤ := .mk [0] (.cons (.scan 1 2 2 stepBody) [.var 0, .lit 0, .lit 0] [some 1, none] .nil) [.var 1]

/-- C121, why partial: a parameter that reaches the output through a second iteration of a `scan` is pruned although the output is that parameter. -/
theorem c121_scan_counterexample : mask scanProg 1 = [false] ∧ ∀ x, scanProg.run ints κ [] [x] = [x] := by
  refine ⟨by decide, fun x => ?_⟩
  simp [scanProg, stepBody, addOp, Jaxpr.run, Eqns.run, Op.run, bindVars, Atom.eval, Jaxpr.outs, List.range_succ]

/-- A `while` with one constant in its condition (the bound `lit`) and the carried pair `(i, a)`; the body keeps `a` and reads it only there. -/
def whileProg : Jaxpr ℤ :=
  .mk [0] (.cons (.loop 1 0 (.mk [0, 1, 2] (.cons addOp [.var 0, .var 1] [some 3] .nil) [.var 3]) (.mk [0, 1] (.cons addOp [.var 0, .lit 1] [some 2] .nil) [.var 2, .var 1]))
    [.lit 5, .lit 0, .var 0] [none, some 1] .nil) [.var 1]

/-- C121, why partial: the positions in the condition and in the body of a `while` are not shifted by the numbers of constants, so a carried parameter is pruned. -/
theorem c121_while_counterexample : mask whileProg 1 = [false] ∧ ∀ x, whileProg.run ints κ [] [x] = [x] := by
  refine ⟨by decide, fun x => ?_⟩
  have : ∀ n (i : ℤ) (path : List ℕ), ((List.range n).foldl (fun st j => Jaxpr.run ints κ (j :: path) (.mk [0, 1] (.cons addOp [.var 0, .lit 1] [some 2] .nil) [.var 2, .var 1]) st) [i, x]) = [i + n, x] := by
    intro n i path
    induction n with
    | zero => simp
    | succ n ih => rw [List.range_succ, List.foldl_append, ih]; simp [addOp, Jaxpr.run, Eqns.run, Op.run, bindVars, Atom.eval]; ring
  have e : ∀ vs, whileProg.run ints κ [] vs = [bindVars (bindVars (fun _ => 0) [some 0] vs) [none, some 1] ((Op.loop 1 0 (.mk [0, 1, 2] (.cons addOp [.var 0, .var 1] [some 3] .nil) [.var 3])
      (.mk [0, 1] (.cons addOp [.var 0, .lit 1] [some 2] .nil) [.var 2, .var 1])).run ints κ [0] [5, 0, bindVars (fun _ => 0) [some 0] vs 0]) 1] := fun _ => rfl
  rw [e]
  unfold Op.run
  simp only [Jaxpr.outs, List.length_cons, List.length_nil, List.drop_succ_cons, List.drop_zero, List.take_zero, List.nil_append]
  rw [if_neg (by decide), show bindVars (fun _ => (0 : ℤ)) [some 0] [x] 0 = x from rfl, this]
  rfl

/-! ### Programs that meet the hypotheses -/

/-- Two inputs, of which a branch reads the second; the third is not read. -/
def condProg : Jaxpr ℤ :=
  .mk [0, 1, 2] (.cons (.cond (.cons (.mk [0, 1] .nil [.var 0]) (.cons (.mk [0, 1] (.cons addOp [.var 1, .var 1] [some 2] .nil) [.var 2]) .nil))) [.lit 0, .var 0, .var 1] [some 3] .nil) [.var 3]

example : LoopFree condProg ∧ mask condProg 3 = [true, true, false] :=
  ⟨.cond _ _ _ _ _ _ _ (.done _ _) (.cond _ _ _ _ _ _ _ (.prim _ _ _ _ _ _ (.done _ _)) (.cond0 _ _ _ _ _ (.done _ _))), by decide⟩

/-- A running sum: `scan` with the input carried and the second input sliced. -/
def sumProg : Jaxpr ℤ := .mk [0, 1, 2] (.cons (.scan 0 1 3 (.mk [0, 1] (.cons addOp [.var 0, .var 1] [some 2] .nil) [.var 2])) [.var 0, .var 1] [some 3] .nil) [.var 3]

example : Settled sumProg (fun _ => true) ∧ mask sumProg 3 = [true, true, false] ∧ sumProg.run ints (fun _ => 0) [] [1, 2, 9] = [7] := by
  refine ⟨?_, by decide, by simp [sumProg, addOp, ints, Jaxpr.run, Eqns.run, Op.run, bindVars, Atom.eval, Jaxpr.outs, List.range_succ]⟩
  simp only [sumProg, addOp, Settled, EqnsSettled, OpSettled, true_and]
  refine fun _ => ⟨by decide, ?_, fun _ => trivial⟩
  intro j hj _
  have : j = 0 := by omega
  subst this
  decide

end Jaqmc.Prune.Props
