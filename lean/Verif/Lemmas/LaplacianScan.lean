import Verif.Lemmas.LaplacianLoop
/-! Proof of C44: `scan`. -/
namespace Jaqmc.Laplacian
open Spec Filter Topology

variable {κ : Type} [Fintype κ]

/-- An operation on single values. -/
def Sound1 (fA : Arr → Except String Arr) (fT : TVal κ → Except String (TVal κ)) : Prop :=
  ∀ p : Pr κ, goodP p → ∀ w, fT p.2 = .ok w → ∃ q : Pr κ, goodP q ∧ q.2 = w ∧ fA p.2.primal = .ok q.2.primal ∧
    ∀ k, ∀ᶠ s in 𝓝 (0 : ℝ), fA (p.1 k s) = .ok (q.1 k s)

def Sound2 (fA : Arr → Arr → Except String Arr) (fT : TVal κ → TVal κ → Except String (TVal κ)) : Prop :=
  ∀ p p' : Pr κ, goodP p → goodP p' → ∀ w, fT p.2 p'.2 = .ok w → ∃ q : Pr κ, goodP q ∧ q.2 = w ∧
    fA p.2.primal p'.2.primal = .ok q.2.primal ∧ ∀ k, ∀ᶠ s in 𝓝 (0 : ℝ), fA (p.1 k s) (p'.1 k s) = .ok (q.1 k s)

theorem good_const (b : Arr) : goodP (κ := κ) (fun _ _ => b, .plain b) := fun _ => Eventually.of_forall fun _ => rfl

theorem curve_slice {X : Type} [NormedAddCommGroup X] [NormedSpace ℝ X] {n L m : ℕ} (h : n = L * m) (i : Fin L) {g : κ → ℝ → Fin n → X} {x : Fin n → X}
    {J : κ → Fin n → X} {l : Fin n → X} (hc : CurveLap g x J l) :
    CurveLap (fun k s => sliceVec L m h i (g k s)) (sliceVec L m h i x) (fun k => sliceVec L m h i (J k)) (sliceVec L m h i l) :=
  CurveLap.pi fun j => hc.apply _

theorem slice_sound (L : ℕ) (i : Fin L) : Sound1 (κ := κ) (sliceArr L i) (sliceT L i) := by
  rintro ⟨γ, v⟩ hg w hw
  match v, hg with
  | .plain a, hg =>
    simp only [sliceT] at hw
    obtain ⟨b, hb, rfl⟩ := map_ok hw
    refine ⟨_, good_const b, rfl, hb, fun k => ?_⟩
    filter_upwards [hg k] with s e
    rw [e, hb]
  | .tracked (.real n) a, ⟨g, h1, h2⟩ =>
    simp only [sliceT] at hw
    by_cases h : n = L * (n / L)
    · rw [dif_pos h] at hw
      cases hw
      refine ⟨(fun k s => .num (.real (n / L)) (sliceVec L (n / L) h i (g k s)), _),
        ?_, rfl, ?_, fun k => ?_⟩
      · exact ⟨fun k s => sliceVec L (n / L) h i (g k s), fun k => Eventually.of_forall fun _ => rfl, curve_slice (n := n) h i h2⟩
      · simp only [TVal.primal, sliceArr]; rw [dif_pos h]
      · filter_upwards [h1 k] with s e
        simp only [e, sliceArr]; rw [dif_pos h]
    · rw [dif_neg h] at hw; cases hw
  | .tracked (.cplx n) a, ⟨g, h1, h2⟩ =>
    simp only [sliceT] at hw
    by_cases h : n = L * (n / L)
    · rw [dif_pos h] at hw
      cases hw
      refine ⟨(fun k s => .num (.cplx (n / L)) (sliceVec L (n / L) h i (g k s)), _),
        ?_, rfl, ?_, fun k => ?_⟩
      · exact ⟨fun k s => sliceVec L (n / L) h i (g k s), fun k => Eventually.of_forall fun _ => rfl, curve_slice (n := n) h i h2⟩
      · simp only [TVal.primal, sliceArr]; rw [dif_pos h]
      · filter_upwards [h1 k] with s e
        simp only [e, sliceArr]; rw [dif_pos h]
    · rw [dif_neg h] at hw; cases hw

theorem curve_append {X : Type} [NormedAddCommGroup X] [NormedSpace ℝ X] {n m : ℕ} {g : κ → ℝ → Fin n → X} {x : Fin n → X}
    {J : κ → Fin n → X} {l : Fin n → X} (hc : CurveLap g x J l) {g' : κ → ℝ → Fin m → X} {x' : Fin m → X}
    {J' : κ → Fin m → X} {l' : Fin m → X} (hc' : CurveLap g' x' J' l') :
    CurveLap (fun k s => Fin.append (g k s) (g' k s)) (Fin.append x x') (fun k => Fin.append (J k) (J' k)) (Fin.append l l') := by
  refine CurveLap.pi fun i => ?_
  refine Fin.addCases (fun i => ?_) (fun i => ?_) i
  · simp only [Fin.append_left]
    exact hc.apply i
  · simp only [Fin.append_right]
    exact hc'.apply i

theorem cat_sound : Sound2 (κ := κ) catArr catT := by
  rintro ⟨γ, v⟩ ⟨γ', v'⟩ hg hg' w hw
  match v, v', hg, hg' with
  | .plain a, .plain a', hg, hg' =>
    simp only [catT] at hw
    obtain ⟨b, hb, rfl⟩ := map_ok hw
    refine ⟨_, good_const b, rfl, hb, fun k => ?_⟩
    filter_upwards [hg k, hg' k] with s e e'
    rw [e, e', hb]
  | .tracked (.real n) a, .tracked (.real m) a', ⟨g, h1, h2⟩, ⟨g', h1', h2'⟩ =>
    simp only [catT, Except.ok.injEq] at hw
    subst hw
    refine ⟨(fun k s => .num (.real (n + m)) (Fin.append (m := n) (n := m) (g k s) (g' k s)), _),
      ?_, rfl, rfl, fun k => ?_⟩
    · exact ⟨_, fun k => Eventually.of_forall fun _ => rfl, curve_append (n := n) (m := m) h2 h2'⟩
    filter_upwards [h1 k, h1' k] with s e e'
    simp only [e, e', catArr]
  | .tracked (.cplx n) a, .tracked (.cplx m) a', ⟨g, h1, h2⟩, ⟨g', h1', h2'⟩ =>
    simp only [catT, Except.ok.injEq] at hw
    subst hw
    refine ⟨(fun k s => .num (.cplx (n + m)) (Fin.append (m := n) (n := m) (g k s) (g' k s)), _),
      ?_, rfl, rfl, fun k => ?_⟩
    · exact ⟨_, fun k => Eventually.of_forall fun _ => rfl, curve_append (n := n) (m := m) h2 h2'⟩
    filter_upwards [h1 k, h1' k] with s e e'
    simp only [e, e', catArr]
  | .tracked (.real n) a, .tracked (.cplx m) a', _, _ => simp [catT] at hw
  | .tracked (.cplx n) a, .tracked (.real m) a', _, _ => simp [catT] at hw
  | .tracked (.real n) a, .plain _, _, _ => simp [catT] at hw
  | .tracked (.cplx n) a, .plain _, _, _ => simp [catT] at hw
  | .plain _, .tracked _ _, _, _ => simp [catT] at hw

theorem mapE_sound {fA : Arr → Except String Arr} {fT : TVal κ → Except String (TVal κ)} (h : Sound1 fA fT) :
    ∀ ps : List (Pr κ), goodL ps → ∀ ws, mapE fT (valL ps) = .ok ws →
      ∃ qs, goodL qs ∧ valL qs = ws ∧ mapE fA (baseL ps) = .ok (baseL qs) ∧
        ∀ k, ∀ᶠ s in 𝓝 (0 : ℝ), mapE fA (curL k s ps) = .ok (curL k s qs)
  | [], _, ws, hw => by
    cases hw
    exact ⟨[], by simp [goodL], rfl, rfl, fun k => Eventually.of_forall fun s => rfl⟩
  | p :: ps, hg, ws, hw => by
    simp only [valL, List.map_cons, mapE, Bind.bind, Except.bind] at hw
    cases h1 : fT p.2 with
    | error e => simp only [h1] at hw; cases hw
    | ok w =>
      simp only [h1] at hw
      cases h2 : mapE fT (ps.map Prod.snd) with
      | error e => simp only [h2] at hw; cases hw
      | ok ws' =>
        simp only [h2, pure, Except.pure, Except.ok.injEq] at hw
        subst hw
        obtain ⟨q, hq1, hq2, hq3, hq4⟩ := h p (hg p List.mem_cons_self) w h1
        obtain ⟨qs, hr1, hr2, hr3, hr4⟩ := mapE_sound h ps (fun a ha => hg a (List.mem_cons_of_mem _ ha)) ws' h2
        refine ⟨q :: qs, fun a ha => ?_, by simp [valL, hq2, ← hr2], ?_, fun k => ?_⟩
        · rcases List.mem_cons.1 ha with rfl | ha
          exacts [hq1, hr1 a ha]
        · simp only [baseL, List.map_cons, mapE, Bind.bind, Except.bind, hq3] at hr3 ⊢
          rw [hr3]
          rfl
        · filter_upwards [hq4 k, hr4 k] with s e1 e2
          simp only [curL, List.map_cons, mapE, Bind.bind, Except.bind, e1] at e2 ⊢
          rw [e2]
          rfl

theorem zipE_sound {fA : Arr → Arr → Except String Arr} {fT : TVal κ → TVal κ → Except String (TVal κ)} (h : Sound2 fA fT) :
    ∀ ps ps' : List (Pr κ), goodL ps → goodL ps' → ∀ ws, zipE fT (valL ps) (valL ps') = .ok ws →
      ∃ qs, goodL qs ∧ valL qs = ws ∧ zipE fA (baseL ps) (baseL ps') = .ok (baseL qs) ∧
        ∀ k, ∀ᶠ s in 𝓝 (0 : ℝ), zipE fA (curL k s ps) (curL k s ps') = .ok (curL k s qs)
  | [], [], _, _, ws, hw => by
    cases hw
    exact ⟨[], by simp [goodL], rfl, rfl, fun k => Eventually.of_forall fun s => rfl⟩
  | [], _ :: _, _, _, ws, hw => by cases hw
  | _ :: _, [], _, _, ws, hw => by cases hw
  | p :: ps, p' :: ps', hg, hg', ws, hw => by
    simp only [valL, List.map_cons, zipE, Bind.bind, Except.bind] at hw
    cases h1 : fT p.2 p'.2 with
    | error e => simp only [h1] at hw; cases hw
    | ok w =>
      simp only [h1] at hw
      cases h2 : zipE fT (ps.map Prod.snd) (ps'.map Prod.snd) with
      | error e => simp only [h2] at hw; cases hw
      | ok ws' =>
        simp only [h2, pure, Except.pure, Except.ok.injEq] at hw
        subst hw
        obtain ⟨q, hq1, hq2, hq3, hq4⟩ := h p p' (hg p List.mem_cons_self) (hg' p' List.mem_cons_self) w h1
        obtain ⟨qs, hr1, hr2, hr3, hr4⟩ := zipE_sound h ps ps' (fun a ha => hg a (List.mem_cons_of_mem _ ha))
          (fun a ha => hg' a (List.mem_cons_of_mem _ ha)) ws' h2
        refine ⟨q :: qs, fun a ha => ?_, by simp [valL, hq2, ← hr2], ?_, fun k => ?_⟩
        · rcases List.mem_cons.1 ha with rfl | ha
          exacts [hq1, hr1 a ha]
        · simp only [baseL, List.map_cons, zipE, Bind.bind, Except.bind, hq3] at hr3 ⊢
          rw [hr3]
          rfl
        · filter_upwards [hq4 k, hr4 k] with s e1 e2
          simp only [curL, List.map_cons, zipE, Bind.bind, Except.bind, e1] at e2 ⊢
          rw [e2]
          rfl

/-- All rows of a table are good. -/
def goodLL (Q : List (List (Pr κ))) : Prop := ∀ ps ∈ Q, goodL ps

theorem stackE_sound {fA : Arr → Arr → Except String Arr} {fT : TVal κ → TVal κ → Except String (TVal κ)} (h : Sound2 fA fT) :
    ∀ Q : List (List (Pr κ)), goodLL Q → ∀ ws, stackE fT (Q.map valL) = .ok ws →
      ∃ qs, goodL qs ∧ valL qs = ws ∧ stackE fA (Q.map baseL) = .ok (baseL qs) ∧
        ∀ k, ∀ᶠ s in 𝓝 (0 : ℝ), stackE fA (Q.map (curL k s)) = .ok (curL k s qs)
  | [], _, ws, hw => by cases hw
  | [ps], hg, ws, hw => by
    simp only [List.map_cons, List.map_nil, stackE, Except.ok.injEq] at hw
    exact ⟨ps, hg ps List.mem_cons_self, hw, rfl, fun k => Eventually.of_forall fun s => rfl⟩
  | ps :: ps' :: Q, hg, ws, hw => by
    simp only [List.map_cons, stackE, Bind.bind, Except.bind] at hw
    cases h1 : stackE fT (valL ps' :: Q.map valL) with
    | error e => simp only [h1] at hw; cases hw
    | ok r =>
      simp only [h1] at hw
      obtain ⟨rs, hr1, hr2, hr3, hr4⟩ := stackE_sound h (ps' :: Q) (fun a ha => hg a (List.mem_cons_of_mem _ ha)) r h1
      rw [← hr2] at hw
      obtain ⟨qs, hq1, hq2, hq3, hq4⟩ := zipE_sound h ps rs (hg ps List.mem_cons_self) hr1 ws hw
      simp only [List.map_cons] at hr3 hr4
      refine ⟨qs, hq1, hq2, ?_, fun k => ?_⟩
      · simp only [List.map_cons, stackE, Bind.bind, Except.bind, hr3]
        exact hq3
      · filter_upwards [hr4 k, hq4 k] with s e1 e2
        simp only [List.map_cons, stackE, Bind.bind, Except.bind, e1]
        exact e2

theorem steps_sound (L : ℕ) (xs : List (Pr κ)) (hx : goodL xs) : ∀ (is : List (Fin L)) (W : List (List (TVal κ))),
    mapE (fun i => mapE (sliceT L i) (valL xs)) is = .ok W →
      ∃ Q : List (List (Pr κ)), goodLL Q ∧ Q.map valL = W ∧
        mapE (fun i => mapE (sliceArr L i) (baseL xs)) is = .ok (Q.map baseL) ∧
        ∀ k, ∀ᶠ s in 𝓝 (0 : ℝ), mapE (fun i => mapE (sliceArr L i) (curL k s xs)) is = .ok (Q.map (curL k s))
  | [], W, hw => by
    cases hw
    exact ⟨[], by simp [goodLL], rfl, rfl, fun k => Eventually.of_forall fun s => rfl⟩
  | i :: is, W, hw => by
    simp only [mapE, Bind.bind, Except.bind] at hw
    cases h1 : mapE (sliceT L i) (valL xs) with
    | error e => simp only [h1] at hw; cases hw
    | ok w =>
      simp only [h1] at hw
      cases h2 : mapE (fun i => mapE (sliceT L i) (valL xs)) is with
      | error e => simp only [h2] at hw; cases hw
      | ok W' =>
        simp only [h2, pure, Except.pure, Except.ok.injEq] at hw
        subst hw
        obtain ⟨q, hq1, hq2, hq3, hq4⟩ := mapE_sound (slice_sound L i) xs hx w h1
        obtain ⟨Q, hr1, hr2, hr3, hr4⟩ := steps_sound L xs hx is W' h2
        refine ⟨q :: Q, fun a ha => ?_, by rw [List.map_cons, hq2, hr2], ?_, fun k => ?_⟩
        · rcases List.mem_cons.1 ha with rfl | ha
          exacts [hq1, hr1 a ha]
        · simp only [mapE, Bind.bind, Except.bind, hq3, hr3]
          rfl
        · filter_upwards [hq4 k, hr4 k] with s e1 e2
          simp only [mapE, Bind.bind, Except.bind, e1, e2]
          rfl

theorem loop_sound {body : List Arr → Except String (List Arr)} {bodyL : List (TVal κ) → Except String (List (TVal κ))}
    {okBody : List Arr → Prop} (hbody : PairSound body bodyL okBody) (cs : List (Pr κ)) (hcs : goodL cs) (nc : ℕ) :
    ∀ (Q : List (List (Pr κ))), goodLL Q → ∀ ps : List (Pr κ), goodL ps →
      okScanLoop body okBody (baseL cs) nc (Q.map baseL) (baseL ps) →
      ∀ c ys, scanLoop sameKinds bodyL (valL cs) nc (Q.map valL) (valL ps) = .ok (c, ys) →
        ∃ (qs : List (Pr κ)) (Y : List (List (Pr κ))), goodL qs ∧ goodLL Y ∧ valL qs = c ∧ Y.map valL = ys ∧
          scanLoop (fun _ _ => true) body (baseL cs) nc (Q.map baseL) (baseL ps) = .ok (baseL qs, Y.map baseL) ∧
          ∀ k, ∀ᶠ s in 𝓝 (0 : ℝ), scanLoop (fun _ _ => true) body (curL k s cs) nc (Q.map (curL k s)) (curL k s ps) =
            .ok (curL k s qs, Y.map (curL k s))
  | [], _, ps, hg, _, c, ys, ho => by
    simp only [List.map_nil, scanLoop, Except.ok.injEq, Prod.mk.injEq] at ho
    exact ⟨ps, [], hg, by simp [goodLL], ho.1, ho.2, rfl, fun k => Eventually.of_forall fun s => rfl⟩
  | x :: Q, hQ, ps, hg, hok, c, ys, ho => by
    simp only [List.map_cons, okScanLoop] at hok
    obtain ⟨hok1, hok2⟩ := hok
    have hv : valL cs ++ valL ps ++ valL x = valL (cs ++ ps ++ x) := by simp only [valL, List.map_append]
    have hb : baseL cs ++ baseL ps ++ baseL x = baseL (cs ++ ps ++ x) := by simp only [baseL, List.map_append]
    rw [hb] at hok1 hok2
    simp only [List.map_cons, scanLoop, Bind.bind, Except.bind, hv] at ho
    cases hr : bodyL (valL (cs ++ ps ++ x)) with
    | error e => simp only [hr] at ho; cases ho
    | ok r =>
      simp only [hr] at ho
      obtain ⟨rs, hr1, hr2, hr3, hr4⟩ := hbody _ (goodL_append (goodL_append hcs hg) (hQ x List.mem_cons_self)) hok1 _ hr
      subst hr2
      cases hk : sameKinds (valL ps) ((valL rs).take nc) with
      | false => simp only [hk] at ho; cases ho
      | true =>
        simp only [hk, if_true] at ho
        have ht : (valL rs).take nc = valL (rs.take nc) := by simp only [valL, List.map_take]
        have hdr : (valL rs).drop nc = valL (rs.drop nc) := by simp only [valL, List.map_drop]
        rw [ht] at ho
        cases hl : scanLoop sameKinds bodyL (valL cs) nc (Q.map valL) (valL (rs.take nc)) with
        | error e => simp only [hl] at ho; cases ho
        | ok cy =>
          obtain ⟨c', ys'⟩ := cy
          simp only [hl, pure, Except.pure, Except.ok.injEq, Prod.mk.injEq] at ho
          have htb : (baseL rs).take nc = baseL (rs.take nc) := by simp only [baseL, List.map_take]
          have hok' := hok2 _ hr3
          rw [htb] at hok'
          obtain ⟨qs, Y, h1, h2, h3, h4, h5, h6⟩ := loop_sound hbody cs hcs nc Q (fun a ha => hQ a (List.mem_cons_of_mem _ ha))
            (rs.take nc) (goodL_take _ hr1) hok' c' ys' hl
          refine ⟨qs, rs.drop nc :: Y, h1, fun a ha => ?_, by rw [h3]; exact ho.1, ?_, ?_, fun k => ?_⟩
          · rcases List.mem_cons.1 ha with rfl | ha
            exacts [goodL_drop _ hr1, h2 a ha]
          · rw [List.map_cons, h4, ← hdr]; exact ho.2
          · simp only [List.map_cons, scanLoop, Bind.bind, Except.bind, hb, hr3, if_true, htb, h5, pure, Except.pure]
            simp only [baseL, List.map_drop]
          · filter_upwards [hr4 k, h6 k] with s e1 e2
            have hb' : curL k s cs ++ curL k s ps ++ curL k s x = curL k s (cs ++ ps ++ x) := by simp only [curL, List.map_append]
            have htc : (curL k s rs).take nc = curL k s (rs.take nc) := by simp only [curL, List.map_take]
            simp only [List.map_cons, scanLoop, Bind.bind, Except.bind, hb', e1, if_true, htc, e2, pure, Except.pure]
            simp only [curL, List.map_drop]

theorem promote_good {γ : κ → ℝ → Arr} {v : TVal κ} (h : Describes γ v) : Describes γ (promote v) ∧ (promote v).primal = v.primal := by
  match v, h with
  | .plain (.num (.real n) v), h =>
    exact ⟨⟨fun _ _ => v, h, CurveLap.const (κ := κ) (E := Fin n → ℝ) v⟩, rfl⟩
  | .plain (.num (.cplx n) v), h =>
    exact ⟨⟨fun _ _ => v, h, CurveLap.const (κ := κ) (E := Fin n → ℂ) v⟩, rfl⟩
  | .plain (.disc n v), h => exact ⟨h, rfl⟩
  | .tracked t a, h => exact ⟨h, rfl⟩

theorem scan_sound (body : Prog κ) (hb : SoundFor body.runPlain body.runLap body.okRun) (nconst nc L : ℕ) (reverse : Bool) :
    SoundFor (scanPrim body nconst nc L reverse).bind (scanPrim body nconst nc L reverse).rule
      (scanPrim body nconst nc L reverse).ok := by
  refine soundFor_of fun ps hg hok outs ho => ?_
  set cs := ps.take nconst with hcs
  set car : List (Pr κ) := ((ps.drop nconst).take nc).map fun p => (p.1, promote p.2) with hcar
  set xs := ps.drop (nconst + nc) with hxs
  have gcs : goodL cs := goodL_take _ hg
  have gxs : goodL xs := goodL_drop _ hg
  have g0 : goodL ((ps.drop nconst).take nc) := goodL_take _ (goodL_drop _ hg)
  have gcar : goodL car := by
    intro p hp
    obtain ⟨q, hq, rfl⟩ := List.mem_map.1 hp
    exact (promote_good (g0 q hq)).1
  have vcar : (((valL ps).drop nconst).take nc).map promote = valL car := by
    simp only [hcar, valL, List.map_map, ← List.map_drop, ← List.map_take]; rfl
  have bcar : ((baseL ps).drop nconst).take nc = baseL car := by
    simp only [hcar, baseL, List.map_map, ← List.map_drop, ← List.map_take]
    exact List.map_congr_left fun q hq => (promote_good (g0 q hq)).2.symm
  have ccar : ∀ k s, ((curL k s ps).drop nconst).take nc = curL k s car := fun k s => by
    simp only [hcar, curL, List.map_map, ← List.map_drop, ← List.map_take]; rfl
  have vcs : (valL ps).take nconst = valL cs := by simp only [hcs, valL, List.map_take]
  have bcs : (baseL ps).take nconst = baseL cs := by simp only [hcs, baseL, List.map_take]
  have ccs : ∀ k s, (curL k s ps).take nconst = curL k s cs := fun k s => by simp only [hcs, curL, List.map_take]
  have vxs : (valL ps).drop (nconst + nc) = valL xs := by simp only [hxs, valL, List.map_drop]
  have bxs : (baseL ps).drop (nconst + nc) = baseL xs := by simp only [hxs, baseL, List.map_drop]
  have cxs : ∀ k s, (curL k s ps).drop (nconst + nc) = curL k s xs := fun k s => by simp only [hxs, curL, List.map_drop]
  simp only [scanPrim, vcar, vcs, vxs, scanGen, Bind.bind, Except.bind] at ho
  simp only [scanPrim, bcs, bxs, bcar] at hok
  cases hW : mapE (fun i : Fin L => mapE (sliceT L i) (valL xs))
      (if reverse then (List.finRange L).reverse else List.finRange L) with
  | error e => simp only [hW] at ho; cases ho
  | ok W =>
    simp only [hW] at ho
    obtain ⟨Q, hQ1, hQ2, hQ3, hQ4⟩ := steps_sound L xs gxs _ W hW
    subst hQ2
    cases hl : scanLoop sameKinds body.runLap (valL cs) nc (Q.map valL) (valL car) with
    | error e => simp only [hl] at ho; cases ho
    | ok cy =>
      obtain ⟨c, ys⟩ := cy
      simp only [hl] at ho
      obtain ⟨qs, Y, h1, h2, h3, h4, h5, h6⟩ := loop_sound (pairSound_of hb) cs gcs nc Q hQ1 car gcar (hok _ hQ3) c ys hl
      subst h3 h4
      set Y' := if reverse then Y.reverse else Y with hY'
      have gY : goodLL Y' := by
        intro a ha
        refine h2 a ?_
        rw [hY'] at ha
        split at ha
        · exact List.mem_reverse.1 ha
        · exact ha
      have hmap : ∀ {B : Type} (f : List (Pr κ) → B), (if reverse then (Y.map f).reverse else Y.map f) = Y'.map f := by
        intro B f
        rw [hY']
        split
        · rw [List.map_reverse]
        · rfl
      rw [hmap] at ho
      cases hs : stackE catT (Y'.map valL) with
      | error e => simp only [hs] at ho; cases ho
      | ok y =>
        simp only [hs, pure, Except.pure, Except.ok.injEq] at ho
        obtain ⟨zs, hz1, hz2, hz3, hz4⟩ := stackE_sound cat_sound Y' gY y hs
        refine ⟨qs ++ zs, goodL_append h1 hz1, by rw [← ho, ← hz2]; simp only [valL, List.map_append], ?_, fun k => ?_⟩
        · simp only [scanPrim, bcs, bxs, bcar, scanGen, Bind.bind, Except.bind, hQ3, h5, hmap, hz3, pure, Except.pure]
          simp only [baseL, List.map_append]
        · filter_upwards [hQ4 k, h6 k, hz4 k] with s e1 e2 e3
          simp only [scanPrim, ccs, cxs, ccar, scanGen, Bind.bind, Except.bind, e1, e2, hmap, e3, pure, Except.pure]
          simp only [curL, List.map_append]

end Jaqmc.Laplacian
