import Verif.Spec.SparseProg
import Verif.Lemmas.SparseDotFinal
import Verif.Lemmas.SparseGather
import Verif.Lemmas.SparseConcat
import Verif.Lemmas.SparseSelect
import Verif.Lemmas.SparsePick
import Verif.Lemmas.SparseReduceSel
import Verif.Lemmas.SparseReduce
import Verif.Lemmas.SparseDiv
import Verif.Lemmas.SparseShape
import Verif.Lemmas.SparseMul
/-! Every primitive, and so every program, agrees with the dense rules (C45). -/
namespace Jaqmc.Sparse
open Spec

section
variable {K : Type} [Field K]

/-- `p` maps arrays of one shape to arrays of one shape. -/
def ShapeMap (p : Arr K → Arr K) : Prop := ∀ A B : Arr K, A.shape = B.shape → (p A).shape = (p B).shape

theorem affine_wf {p q : Arr K → Arr K} {D : DLap K} (hw : D.WF) (hp : ∀ A : Arr K, A.shape = D.x.shape → (q A).shape = (p D.x).shape) :
    (affine p q D).WF :=
  ⟨fun r hr => hp _ (hw.jac r hr), hp _ hw.lap⟩

theorem linear_wf {p : Arr K → Arr K} {D : DLap K} (hw : D.WF) (hp : ∀ A : Arr K, A.shape = D.x.shape → (p A).shape = (p D.x).shape) :
    (linear p D).WF :=
  ⟨fun r hr => hp _ (hw.jac r hr), hp _ hw.lap⟩

theorem chain1_wf {f f1 f2 : K → K} {D : DLap K} : (chain1 f f1 f2 D).WF := ⟨fun _ _ => rfl, rfl⟩

theorem dsame_refl (D : DLap K) : D.Same D := ⟨⟨rfl, fun _ _ => rfl⟩, rfl, fun _ _ => ⟨rfl, fun _ _ => rfl⟩, rfl, fun _ _ => rfl⟩

/-- One tracked operand: sparse branch and dense branch. -/
theorem onOne_expands {sp : SLap K → Option (Val K)} {rule : DLap K → DLap K} {n : ℕ} {vs : List (Val K)} {Ds : List (DLap K)} {v : Val K}
    (hw : ∀ u ∈ vs, u.WF) (hl : vs.mapM (Val.lift n) = some Ds) (h : onOne sp rule vs = some v)
    (hs : ∀ s D, vs = [.sparse s] → Ds = [D] → s.WF → s.expand = some D → sp s = some v → v.ExpandsTo (rule D))
    (hd : ∀ D, D.WF → Ds = [D] → (rule D).WF) : ∃ D, Ds = [D] ∧ v.ExpandsTo (rule D) := by
  unfold onOne at h
  split at h
  · rename_i s
    obtain ⟨D, Ds', hD, hn, rfl⟩ := mapM_cons_some hl
    have : Ds' = [] := by simpa using hn.symm
    subst this
    exact ⟨D, rfl, hs s D rfl rfl (hw _ (List.mem_singleton.2 rfl)) (lift_sparse hD).2 h⟩
  · rename_i d
    obtain ⟨D, Ds', hD, hn, rfl⟩ := mapM_cons_some hl
    have : Ds' = [] := by simpa using hn.symm
    subst this
    have hDd : D = d := by
      unfold Val.lift at hD; simp only at hD; split at hD
      · exact (Option.some.inj hD).symm
      · cases hD
    subst hDd
    refine ⟨D, rfl, ?_⟩
    rw [← Option.some.inj h]
    exact ⟨hd D (hw _ (List.mem_singleton.2 rfl)) rfl, dsame_refl _⟩
  · cases h

theorem onTwo_some {f : Val K → Val K → Option (Val K)} {n : ℕ} {vs : List (Val K)} {Ds : List (DLap K)} {v : Val K}
    (hl : vs.mapM (Val.lift n) = some Ds) (h : onTwo f vs = some v) :
    ∃ l r D E, vs = [l, r] ∧ Ds = [D, E] ∧ l.lift n = some D ∧ r.lift n = some E ∧ f l r = some v := by
  unfold onTwo at h
  split at h
  · rename_i l r
    obtain ⟨D, Ds', hD, hn, rfl⟩ := mapM_cons_some hl
    obtain ⟨E, Ds'', hE, hn', rfl⟩ := mapM_cons_some hn
    have : Ds'' = [] := by simpa using hn'.symm
    subst this
    exact ⟨l, r, D, E, rfl, rfl, hD, hE, h⟩
  · cases h

theorem map_sparse {o : Option (SLap K)} {v : Val K} {E : DLap K} (h : o.map Val.sparse = some v)
    (he : ∀ t, o = some t → t.ExpandsTo E) : v.ExpandsTo E := by
  cases o with
  | none => cases h
  | some t => rw [← Option.some.inj h]; exact he t rfl

theorem run_expands (op : Op K) {n : ℕ} {vs : List (Val K)} {Ds : List (DLap K)} {v : Val K}
    (hw : ∀ u ∈ vs, u.WF) (hl : vs.mapM (Val.lift n) = some Ds) (hp : op.Pre vs Ds) (h : op.run vs = some v) :
    ∃ E, op.rule n Ds = some E ∧ E.n = n ∧ v.ExpandsTo E := by
  classical
  have hn1 : ∀ D, Ds = [D] → D.n = n := by
    rintro D rfl
    obtain ⟨u, _, hu⟩ := mapM_mem hl (List.mem_singleton.2 rfl)
    exact lift_n hu
  cases op with
  | unary f f1 f2 =>
    obtain ⟨D, rfl, hv⟩ := onOne_expands hw hl h
      (fun s D _ _ hs hD hr => map_sparse hr fun t ht => handleUnary_expands hs hD ht) (fun D _ _ => chain1_wf)
    exact ⟨_, rfl, hn1 D rfl, hv⟩
  | neg =>
    obtain ⟨D, rfl, hv⟩ := onOne_expands hw hl h
      (fun s D _ _ hs hD hr => map_sparse hr fun t ht => handleNeg_expands hs hD ht) (fun D _ _ => chain1_wf)
    exact ⟨_, rfl, hn1 D rfl, hv⟩
  | round rnd =>
    obtain ⟨D, rfl, hv⟩ := onOne_expands hw hl h
      (fun s D _ _ hs hD hr => map_sparse hr fun t ht => handleRound_expands hs hD ht) (fun D _ _ => chain1_wf)
    exact ⟨_, rfl, hn1 D rfl, hv⟩
  | component f =>
    have hp' : ∀ u v, f (u + v) = f u + f v := by
      unfold Op.Pre at hp; split at hp <;> simp_all
    obtain ⟨D, rfl, hv⟩ := onOne_expands hw hl h
      (fun s D _ _ hs hD hr => map_sparse hr fun t ht => handleComponent_expands hp' hs hD ht)
      (fun D hD _ => linear_wf hD fun A hA => hA)
    exact ⟨_, rfl, hn1 D rfl, hv⟩
  | addSub sub =>
    obtain ⟨l, r, D, E, rfl, rfl, hlD, hrE, hf⟩ := onTwo_some hl h
    exact ⟨_, rfl, (show D.n = n from lift_n hlD), handleAddSub_expands (hw l (by simp)) (hw r (by simp)) hlD hrE hp hf⟩
  | mul =>
    obtain ⟨l, r, D, E, rfl, rfl, hlD, hrE, hf⟩ := onTwo_some hl h
    exact ⟨_, rfl, (show D.n = n from lift_n hlD), handleMul_expands (hw l (by simp)) (hw r (by simp)) hlD hrE hp hf⟩
  | div =>
    obtain ⟨l, r, D, E, rfl, rfl, hlD, hrE, hf⟩ := onTwo_some hl h
    exact ⟨_, rfl, (show D.n = n from lift_n hlD), handleDiv_expands (hw l (by simp)) (hw r (by simp)) hlD hrE hp hf⟩
  | rem rm =>
    obtain ⟨l, r, D, E, rfl, rfl, hlD, hrE, hf⟩ := onTwo_some hl h
    refine ⟨_, rfl, (show D.n = n from lift_n hlD), ?_⟩
    cases r with
    | dense d => cases hf
    | sparse s => cases hf
    | plain p =>
      simp only at hf
      have hE := lift_plain hrE
      subst hE
      cases l with
      | sparse a => exact handleRem_expands (hw (.sparse a) (by simp)) hlD hf
      | plain q => exact dense2_expands hlD hrE hf
      | dense d => exact dense2_expands hlD hrE hf
  | pow pw pw1 pw2 =>
    obtain ⟨l, r, D, E, rfl, rfl, hlD, hrE, hf⟩ := onTwo_some hl h
    refine ⟨_, rfl, (show D.n = n from lift_n hlD), ?_⟩
    cases r with
    | dense d => cases hf
    | sparse s => cases hf
    | plain p =>
      simp only at hf
      have hE := lift_plain hrE
      subst hE
      cases l with
      | sparse a => exact handlePow_expands (hw (.sparse a) (by simp)) hlD hf
      | plain q => exact dense2_expands hlD hrE hf
      | dense d => exact dense2_expands hlD hrE hf
  | pick pk pred =>
    obtain ⟨l, r, D, E, rfl, rfl, hlD, hrE, hf⟩ := onTwo_some hl h
    obtain ⟨h1, h2, h3, h4⟩ := hp
    refine ⟨_, rfl, (show D.n = n from lift_n hlD), ?_⟩
    refine handlePick_expands (hw l (by simp)) (hw r (by simp)) hlD hrE h1 h2 ?_ ?_ hf
    · rcases h3 with h3 | h3
      · exact Or.inl ⟨h3 l (by simp), h3 r (by simp)⟩
      · exact Or.inr h3
    · rintro a b rfl rfl; exact h4 a b rfl
  | transpose perm =>
    obtain ⟨D, rfl, hv⟩ := onOne_expands hw hl h
      (fun s D _ hDs hs hD hr => map_sparse hr fun t ht => handleTranspose_expands hs hD (by subst hDs; exact hp) ht)
      (fun D hD _ => linear_wf hD fun A hA => by simp [laxTranspose, hA])
    exact ⟨_, rfl, hn1 D rfl, hv⟩
  | squeeze dims =>
    obtain ⟨D, rfl, hv⟩ := onOne_expands hw hl h
      (fun s D _ hDs hs hD hr => map_sparse hr fun t ht => by
        subst hDs; exact handleSqueeze_expands hs hD hp.1 hp.2 ht)
      (fun D hD _ => linear_wf hD fun A hA => by simp [laxSqueeze, hA])
    exact ⟨_, rfl, hn1 D rfl, hv⟩
  | rev dims =>
    obtain ⟨D, rfl, hv⟩ := onOne_expands hw hl h
      (fun s D _ hDs hs hD hr => map_sparse hr fun t ht => handleRev_expands hs hD ht)
      (fun D hD _ => linear_wf hD fun A hA => by simp [laxRev, hA])
    exact ⟨_, rfl, hn1 D rfl, hv⟩
  | slice start limit stride =>
    obtain ⟨D, rfl, hv⟩ := onOne_expands hw hl h
      (fun s D _ hDs hs hD hr => map_sparse hr fun t ht => handleSlice_expands hs hD (by subst hDs; exact hp) ht)
      (fun D hD _ => linear_wf hD fun A hA => by simp [laxSlice, hA])
    exact ⟨_, rfl, hn1 D rfl, hv⟩
  | split axis sizes k =>
    obtain ⟨D, rfl, hv⟩ := onOne_expands hw hl h
      (fun s D _ hDs hs hD hr => map_sparse hr fun t ht => by
        subst hDs
        obtain ⟨vs', hvs, hk⟩ := Option.bind_eq_some_iff.1 ht
        obtain ⟨_, h2⟩ := handleSplit_expands hs hD hp.1 hp.2.1 hvs
        obtain ⟨v', hv', he⟩ := h2 k hp.2.2
        rw [hk] at hv'
        rw [Option.some.inj hv']
        exact he)
      (fun D hD hDs => by
        subst hDs
        refine linear_wf hD fun A hA => ?_
        have aux : ∀ (A : Arr K) (ns : List ℕ) (st k : ℕ), k < ns.length →
            (((laxSplit A axis st ns)[k]?).getD A).shape = A.shape.set axis (ns.getD k 0) := by
          intro A ns
          induction ns with
          | nil => intro st k hk; simp at hk
          | cons m ns ih =>
            intro st k hk
            cases k with
            | zero => simp [laxSplit]
            | succ k => simpa [laxSplit] using ih (st + m) k (by simpa using hk)
        rw [aux A sizes 0 k hp.2.2, aux D.x sizes 0 k hp.2.2, hA])
    exact ⟨_, rfl, hn1 D rfl, hv⟩
  | broadcastInDim shape bdims =>
    obtain ⟨D, rfl, hv⟩ := onOne_expands hw hl h
      (fun s D _ hDs hs hD hr => map_sparse hr fun t ht => handleBroadcastInDim_expands hs hD (by subst hDs; exact hp) ht)
      (fun D hD _ => linear_wf hD fun A hA => rfl)
    exact ⟨_, rfl, hn1 D rfl, hv⟩
  | reshape new =>
    obtain ⟨D, rfl, hv⟩ := onOne_expands hw hl h
      (fun s D _ hDs hs hD hr => handleReshape_expands hs hD (by subst hDs; exact hp) hr)
      (fun D hD _ => linear_wf hD fun A hA => rfl)
    exact ⟨_, rfl, hn1 D rfl, hv⟩
  | reduceSum axes =>
    obtain ⟨D, rfl, hv⟩ := onOne_expands hw hl h
      (fun s D _ hDs hs hD hr => by subst hDs; exact handleReduceSum_expands hs hD hp.1 hp.2 hr)
      (fun D hD _ => linear_wf hD fun A hA => by simp [laxReduceSum, hA])
    exact ⟨_, rfl, hn1 D rfl, hv⟩
  | reducePick red axes =>
    obtain ⟨D, rfl, hv⟩ := onOne_expands hw hl h
      (fun s D _ hDs hs hD hr => by subst hDs; exact handleReduceSelect_expands hs hD hp.1 hp.2.1 hp.2.2 hr)
      (fun D hD hDs => by
        subst hDs
        refine ⟨fun r hr => ?_, ?_⟩
        · show dropAxes axes (D.jac r).shape = (red D.x).shape
          rw [hD.jac r hr, hp.1]
        · show dropAxes axes D.lap.shape = (red D.x).shape
          rw [hD.lap, hp.1])
    exact ⟨_, rfl, hn1 D rfl, hv⟩
  | selectN which =>
    have hp' : ∃ sh, (∀ D ∈ Ds, D.x.shape = sh) ∧ (which.shape = sh ∨ which.shape = []) := by
      cases Ds with
      | nil => exact hp
      | cons D Ds => exact hp
    obtain ⟨sh, hs1, hs2⟩ := hp'
    have hne : vs ≠ [] := by
      rintro rfl
      simp only [Op.run, handleSelectN] at h
      simp [sparsesOf] at h
    have hsh : ∀ u ∈ vs, u.arr.shape = sh := by
      intro u hu
      obtain ⟨k, hk, rfl⟩ := List.getElem_of_mem hu
      obtain ⟨_, h2⟩ := mapM_some hl
      obtain ⟨D, hD, hD'⟩ := h2 k vs[k] (List.getElem?_eq_getElem hk)
      rw [← lift_x hD']
      exact hs1 D (List.mem_of_getElem? hD)
    have hlen := (mapM_some hl).1
    have he := handleSelectN_expands hw hsh hs2 hl hne h
    cases Ds with
    | nil => simp at hlen; exact absurd hlen.symm (by simpa using hne)
    | cons D Ds =>
      refine ⟨_, rfl, rfl, ?_⟩
      have e1 : vs.length - 1 = Ds.length := by simp at hlen; omega
      rw [e1] at he
      rw [hs1 D (List.mem_cons_self ..)]
      exact he
  | concatenate axis =>
    have hp' : (∃ base : List ℕ, axis < base.length ∧ ∀ D ∈ Ds, ∃ m, D.x.shape = base.set axis m) ∧
      ∀ p, Val.plain p ∈ vs → ∀ t, (sparsesOf vs).head? = some t →
      (∀ o ∈ t.jac.roles, o.axis ≠ some axis) ∨ p.shape.getD axis 0 = t.x.shape.getD axis 0 := by
      cases Ds with
      | nil => exact hp
      | cons D Ds => exact hp
    obtain ⟨⟨base, hb1, hb2⟩, hpl⟩ := hp'
    have hne : vs ≠ [] := by
      rintro rfl
      simp [Op.run, handleConcatenate, concatSJ] at h
    have hsh : ∀ u ∈ vs, ∃ m, u.arr.shape = base.set axis m := by
      intro u hu
      obtain ⟨k, hk, rfl⟩ := List.getElem_of_mem hu
      obtain ⟨_, h2⟩ := mapM_some hl
      obtain ⟨D, hD, hD'⟩ := h2 k vs[k] (List.getElem?_eq_getElem hk)
      rw [← lift_x hD']
      exact hb2 D (List.mem_of_getElem? hD)
    have hlen := (mapM_some hl).1
    have he := handleConcatenate_expands hw hb1 hsh hne hl hpl h
    cases Ds with
    | nil => simp at hlen; exact absurd hlen.symm (by simpa using hne)
    | cons D Ds => exact ⟨_, rfl, rfl, he⟩
  | gather starts concrete g sizes mode fillv =>
    obtain ⟨D, rfl, hv⟩ := onOne_expands hw hl h
      (fun s D _ hDs hs hD hr => by subst hDs; exact handleGather_expands hs hD hp hr)
      (fun D hD _ => affine_wf hD fun A hA => by simp [laxGather, hA])
    exact ⟨_, rfl, hn1 D rfl, hv⟩
  | dot d =>
    obtain ⟨l, r, D, E, rfl, rfl, hlD, hrE, hf⟩ := onTwo_some hl h
    exact ⟨_, rfl, (show D.n = n from lift_n hlD), handleDot_expands (hw l (by simp)) (hw r (by simp)) hlD hrE hp.1 hp.2 hf⟩

/-! ### Programs -/

theorem expands_wf {v : Val K} {E : DLap K} (h : v.ExpandsTo E) : v.WF := by
  cases v with
  | plain p => exact h.elim
  | dense d => exact h.1
  | sparse s => exact h.1

theorem expands_lift {v : Val K} {E : DLap K} (h : v.ExpandsTo E) : ∃ D, v.lift E.n = some D ∧ D.Same E := by
  cases v with
  | plain p => exact h.elim
  | dense d =>
    refine ⟨d, ?_, h.2⟩
    unfold Val.lift
    simp only
    rw [if_pos h.2.2.1]
  | sparse s =>
    obtain ⟨hw, D, hD, hs⟩ := h
    refine ⟨D, ?_, hs⟩
    unfold Val.lift
    simp only
    have hn : s.jac.inShape.prod = E.n := by
      have := (expand_some hD).1
      rw [← hs.2.1, this]
    rw [if_pos hn, hD]

theorem lookup_append {α : Type} {env : List α} {l : List α} : ∀ {args : List ℕ} {vs : List α},
    args.mapM (env[·]?) = some vs → args.mapM ((env ++ l)[·]?) = some vs := by
  intro args
  induction args with
  | nil => intro vs h; exact h
  | cons a as ih =>
    intro vs h
    obtain ⟨b, bs, hb, hbs, rfl⟩ := mapM_cons_some h
    rw [List.mapM_cons, ih hbs]
    have ha : a < env.length := by
      by_contra hc
      rw [List.getElem?_eq_none (by omega)] at hb
      cases hb
    rw [List.getElem?_append_left ha, hb]
    rfl

theorem lookup_mapM {α β : Type} {f : α → Option β} {env : List α} {F : List β} (hF : env.mapM f = some F) :
    ∀ {args : List ℕ} {vs : List α}, args.mapM (env[·]?) = some vs →
      ∃ Ds, args.mapM (F[·]?) = some Ds ∧ vs.mapM f = some Ds := by
  intro args
  induction args with
  | nil =>
    intro vs h
    have : vs = [] := by simpa using h.symm
    subst this
    exact ⟨[], rfl, rfl⟩
  | cons a as ih =>
    intro vs h
    obtain ⟨b, bs, hb, hbs, rfl⟩ := mapM_cons_some h
    obtain ⟨Ds, h1, h2⟩ := ih hbs
    obtain ⟨D, hD, hD'⟩ := (mapM_some hF).2 a b hb
    exact ⟨D :: Ds, by rw [List.mapM_cons, hD, h1]; rfl, by rw [List.mapM_cons, hD', h2]; rfl⟩

theorem mapM_append_one {α β : Type} {f : α → Option β} {env : List α} {F : List β} {v : α} {D : β}
    (hF : env.mapM f = some F) (hv : f v = some D) : (env ++ [v]).mapM f = some (F ++ [D]) := by
  rw [List.mapM_append, hF]
  simp [hv]

theorem runProg_prefix {prog : List (Eqn K)} : ∀ {env env' : List (Val K)}, runProg prog env = some env' →
    ∃ l, env' = env ++ l ∧ l.length = prog.length := by
  induction prog with
  | nil => intro env env' h; exact ⟨[], by simp [runProg] at h; simp [h], rfl⟩
  | cons e es ih =>
    intro env env' h
    simp only [runProg, Option.bind_eq_bind, Option.bind_eq_some_iff] at h
    obtain ⟨vs, _, v, _, h⟩ := h
    obtain ⟨l, hl, hlen⟩ := ih h
    exact ⟨v :: l, by simp [hl], by simp [hlen]⟩

/-- A run agrees with the dense rules at every equation. -/
theorem runProg_dense {n : ℕ} {prog : List (Eqn K)} : ∀ {env env' : List (Val K)} {F₀ : List (DLap K)},
    (∀ u ∈ env, u.WF) → env.mapM (Val.lift n) = some F₀ → runProg prog env = some env' →
    (∀ e ∈ prog, ∀ vs Ds, e.args.mapM (env'[·]?) = some vs → vs.mapM (Val.lift n) = some Ds → e.op.Pre vs Ds) →
    (∀ u ∈ env', u.WF) ∧ ∃ L, env'.mapM (Val.lift n) = some (F₀ ++ L) ∧ L.length = prog.length ∧
      DenseRun n prog env.length (F₀ ++ L) := by
  induction prog with
  | nil =>
    intro env env' F₀ hw hF h _
    have : env = env' := by simpa [runProg] using h
    subst this
    exact ⟨hw, [], by simpa using hF, rfl, fun k e he => by simp at he⟩
  | cons e es ih =>
    intro env env' F₀ hw hF h hpre
    simp only [runProg, Option.bind_eq_bind, Option.bind_eq_some_iff] at h
    obtain ⟨vs, hvs, v, hv, h⟩ := h
    obtain ⟨l, hl, _⟩ := runProg_prefix h
    obtain ⟨Ds, hDs, hlift⟩ := lookup_mapM hF hvs
    have hvs' : e.args.mapM (env'[·]?) = some vs := by
      rw [hl, List.append_assoc]; exact lookup_append hvs
    have hwv : ∀ u ∈ vs, u.WF := by
      intro u hu
      obtain ⟨a, _, ha⟩ := mapM_mem hvs hu
      exact hw u (List.mem_of_getElem? ha)
    obtain ⟨E, hE, hEn, hex⟩ := run_expands e.op hwv hlift (hpre e (List.mem_cons_self ..) vs Ds hvs' hlift) hv
    obtain ⟨D, hD, hs⟩ := expands_lift hex
    rw [hEn] at hD
    have hw1 : ∀ u ∈ env ++ [v], u.WF := by
      intro u hu
      rcases List.mem_append.1 hu with hu | hu
      · exact hw u hu
      · rw [List.mem_singleton.1 hu]; exact expands_wf hex
    obtain ⟨hw2, L, hL, hlen, hrun⟩ := ih hw1 (mapM_append_one hF hD) h fun e' he' => hpre e' (List.mem_cons_of_mem _ he')
    have hF₀ := (mapM_some hF).1
    refine ⟨hw2, D :: L, by simpa using hL, by simp [hlen], ?_⟩
    intro k e' hk
    cases k with
    | zero =>
      have he : e = e' := by simpa using hk
      subst he
      refine ⟨Ds, E, D, lookup_append hDs, hE, ?_, hs⟩
      rw [← hF₀]; simp
    | succ k =>
      obtain ⟨Ds', E', D', h1, h2, h3, h4⟩ := hrun k e' (by simpa using hk)
      refine ⟨Ds', E', D', by simpa using h1, h2, ?_, h4⟩
      simp only [List.append_assoc, List.singleton_append, List.length_append, List.length_singleton] at h3
      rw [← h3]; congr 1; omega

end
end Jaqmc.Sparse
