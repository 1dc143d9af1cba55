import Verif.Model.Wavefunction
import Verif.Spec.Wavefunction
import Mathlib.Algebra.BigOperators.Fin
import Mathlib.Algebra.BigOperators.Group.Finset.Piecewise
/-! Equivariance of every layer under same-spin relabellings. -/
namespace Jaqmc.Wf
open Geometry Matrix Spec
open scoped Classical BigOperators

variable {nu nd : ℕ}

section rows
variable {ι κ : Type} (f : κ → ι)

theorem rows_dense (P : Dense) (b : Bool) (o : ℕ) (x : Feat ι) : dense P b o (x.rows f) = (dense P b o x).rows f := rfl
theorem rows_tanh (x : Feat ι) : tanhF (x.rows f) = (tanhF x).rows f := rfl
theorem rows_add (x y : Feat ι) : addF (x.rows f) (y.rows f) = (addF x y).rows f := rfl
theorem rows_cat (x y : Feat ι) : Feat.cat (x.rows f) (y.rows f) = (Feat.cat x y).rows f := rfl
theorem rows_norm (P : Norm) (e : ℝ) (x : Feat ι) : layerNorm P e (x.rows f) = (layerNorm P e x).rows f := rfl

theorem rows_residual (x y : Feat ι) : residual (x.rows f) (y.rows f) = (residual x y).rows f := by
  unfold residual
  by_cases h : x.width = y.width
  · simp [Feat.rows, h]
  · simp [Feat.rows, h]

theorem rows_foldl_cat (L : List (Feat ι)) (h : Feat ι) :
    (L.map (Feat.rows f)).foldl Feat.cat (h.rows f) = (L.foldl Feat.cat h).rows f := by
  induction L generalizing h with
  | nil => rfl
  | cons a L ih => simp only [List.map_cons, List.foldl_cons, rows_cat, ih]

theorem rows_updateDouble (l : FermiLayer) (x : Feat ι) : updateDouble l (x.rows f) = (updateDouble l x).rows f := by
  unfold updateDouble
  rw [rows_dense, rows_tanh, rows_residual]

theorem rows_mlp (ls : List (ℕ × Dense)) (x : Feat ι) : mlpLoop ls (x.rows f) = (mlpLoop ls x).rows f := by
  induction ls generalizing x with
  | nil => rfl
  | cons a ls ih => simp only [mlpLoop, rows_dense, rows_tanh, ih]

theorem rows_projectQK (c : LapConfig) (l : LapLayer) (x : Feat ι) :
    projectQK c l (x.rows f) = ((projectQK c l x).1.rows f, (projectQK c l x).2.rows f) := by
  unfold projectQK
  cases c.useNorm <;> rfl

theorem rows_qkBlock (c : LapConfig) (l : LapLayer) (x : Feat ι) : qkBlock c l (x.rows f) = (qkBlock c l x).rows f := by
  unfold qkBlock
  generalize l.updates = L
  induction L generalizing x with
  | nil => rfl
  | cons a L ih => simp only [List.foldl_cons, rows_dense, rows_tanh, rows_add, ih]

end rows

/-- The sum over the up slice as a masked sum. -/
theorem sum_up {M : Type} [AddCommMonoid M] (f : Fin (nu + nd) → M) :
    ∑ i : Fin nu, f (Fin.castAdd nd i) = ∑ i : Fin (nu + nd), if i.val < nu then f i else 0 := by
  rw [Fin.sum_univ_add]
  simp

theorem sum_down {M : Type} [AddCommMonoid M] (f : Fin (nu + nd) → M) :
    ∑ i : Fin nd, f (Fin.natAdd nu i) = ∑ i : Fin (nu + nd), if i.val < nu then 0 else f i := by
  rw [Fin.sum_univ_add]
  simp

theorem sum_up_perm {M : Type} [AddCommMonoid M] (σ : Equiv.Perm (Fin (nu + nd))) (h : SameSpin nu σ) (f : Fin (nu + nd) → M) :
    ∑ i : Fin nu, f (σ (Fin.castAdd nd i)) = ∑ i : Fin nu, f (Fin.castAdd nd i) := by
  rw [sum_up (fun i => f (σ i)), sum_up f, ← Equiv.sum_comp σ (fun i => if i.val < nu then f i else 0)]
  exact Finset.sum_congr rfl fun i _ => by simp only [h i]

theorem sum_down_perm {M : Type} [AddCommMonoid M] (σ : Equiv.Perm (Fin (nu + nd))) (h : SameSpin nu σ) (f : Fin (nu + nd) → M) :
    ∑ i : Fin nd, f (σ (Fin.natAdd nu i)) = ∑ i : Fin nd, f (Fin.natAdd nu i) := by
  rw [sum_down (fun i => f (σ i)), sum_down f, ← Equiv.sum_comp σ (fun i => if i.val < nu then 0 else f i)]
  exact Finset.sum_congr rfl fun i _ => by simp only [h i]

/-- A concatenation of per-channel row functions. -/
theorem append_eq {α : Type} (f g : Fin (nu + nd) → α) (i : Fin (nu + nd)) :
    Fin.append (fun e : Fin nu => f (Fin.castAdd nd e)) (fun e : Fin nd => g (Fin.natAdd nu e)) i
      = if i.val < nu then f i else g i := by
  refine Fin.addCases (fun e => ?_) (fun e => ?_) i
  · simp
  · simp

/-- Both streams relabelled. -/
def relabel2 (σ : Equiv.Perm (Fin (nu + nd))) : Fin (nu + nd) × Fin (nu + nd) → Fin (nu + nd) × Fin (nu + nd) :=
  fun p => (σ p.1, σ p.2)

theorem aggregate_rows (σ : Equiv.Perm (Fin (nu + nd))) (h : SameSpin nu σ) (h1 : Feat (Fin (nu + nd)))
    (h2 : Feat (Fin (nu + nd) × Fin (nu + nd))) :
    aggregate (h1.rows σ) (h2.rows (relabel2 σ)) = (aggregate h1 h2).rows σ := by
  unfold aggregate
  simp only []
  rw [← rows_foldl_cat]
  congr 1
  rw [List.map_append]
  congr 1
  · unfold splitRows
    split_ifs with hs
    · simp only [List.map_cons, List.map_nil, upRows, downRows, meanRows, Feat.rows]
      congr 2
      · funext i k; rw [sum_up_perm σ h (fun i => h1.val i k)]
      · congr 1; funext i k; rw [sum_down_perm σ h (fun i => h1.val i k)]
    · simp only [List.map_cons, List.map_nil, meanRows, Feat.rows]
      congr 2
      funext i k; rw [Equiv.sum_comp σ (fun i => h1.val i k)]
  · unfold splitRows
    split_ifs with hs
    · simp only [List.map_cons, List.map_nil, upRows, downRows, meanRows, Feat.rows, relabel2]
      congr 2
      · funext i k; rw [sum_up_perm σ h (fun j => h2.val (j, σ i) k)]
      · congr 1; funext i k; rw [sum_down_perm σ h (fun j => h2.val (j, σ i) k)]
    · simp only [List.map_cons, List.map_nil, meanRows, Feat.rows, relabel2]
      congr 2
      funext i k; rw [Equiv.sum_comp σ (fun j => h2.val (j, σ i) k)]

theorem updateSingle_rows (σ : Equiv.Perm (Fin (nu + nd))) (h : SameSpin nu σ) (l : FermiLayer) (h1 : Feat (Fin (nu + nd)))
    (h2 : Feat (Fin (nu + nd) × Fin (nu + nd))) :
    updateSingle l (h1.rows σ) (h2.rows (relabel2 σ)) = (updateSingle l h1 h2).rows σ := by
  unfold updateSingle
  rw [aggregate_rows σ h, rows_dense, rows_tanh, rows_residual]

theorem fermiLayers_rows (σ : Equiv.Perm (Fin (nu + nd))) (h : SameSpin nu σ) (u : Bool) (ls : List FermiLayer)
    (h1 : Feat (Fin (nu + nd))) (h2 : Feat (Fin (nu + nd) × Fin (nu + nd))) :
    fermiLayers u ls (h1.rows σ) (h2.rows (relabel2 σ))
      = ((fermiLayers u ls h1 h2).1.rows σ, (fermiLayers u ls h1 h2).2.rows (relabel2 σ)) := by
  induction ls generalizing h1 h2 with
  | nil => rfl
  | cons l ls ih =>
    cases ls with
    | nil =>
      simp only [fermiLayers]
      rw [updateSingle_rows σ h, rows_updateDouble, aggregate_rows σ h]
      cases u <;> rfl
    | cons l' ls =>
      simp only [fermiLayers]
      rw [updateSingle_rows σ h, rows_updateDouble, ih]

theorem softmax_perm {n : ℕ} (σ : Equiv.Perm (Fin n)) (f : Fin n → ℝ) (j : Fin n) :
    softmax (fun l => f (σ l)) j = softmax f (σ j) := by
  unfold softmax
  have e : (⨆ l, f (σ l)) = ⨆ l, f l := σ.surjective.iSup_comp f
  rw [e, Equiv.sum_comp σ (fun l => Real.exp (f l - ⨆ l', f l'))]

theorem attend_perm {n : ℕ} (σ : Equiv.Perm (Fin n)) (f v : Fin n → ℝ) :
    ∑ j, softmax (fun l => f (σ l)) j * v (σ j) = ∑ j, softmax f j * v j := by
  simp only [softmax_perm]
  exact Equiv.sum_comp σ (fun j => softmax f j * v j)

theorem selfAttention_rows {n : ℕ} (σ : Equiv.Perm (Fin n)) (P : Attention) (b : Bool) (H D : ℕ) (x : Feat (Fin n)) :
    selfAttention P b H D (x.rows σ) = (selfAttention P b H D x).rows σ := by
  unfold selfAttention
  simp only []
  rw [← rows_dense]
  refine congrArg (dense P.out b (H * D)) ?_
  refine congrArg (Feat.mk (H * D)) ?_
  funext i e
  exact attend_perm σ (fun j => ∑ c ∈ Finset.range D, ((dense P.query b (H * D) x).val (σ i) (e / D * D + c) / Real.sqrt D)
    * (dense P.key b (H * D) x).val j (e / D * D + c)) (fun j => (dense P.value b (H * D) x).val j e)

theorem lapAttention_rows {n : ℕ} (σ : Equiv.Perm (Fin n)) (H D : ℕ) (q k v : Feat (Fin n)) :
    lapAttention H D (q.rows σ) (k.rows σ) (v.rows σ) = (lapAttention H D q k v).rows σ := by
  unfold lapAttention
  simp only []
  refine congrArg (Feat.mk (H * D)) ?_
  funext i e
  exact attend_perm σ (fun j => (∑ c ∈ Finset.range D, q.val (σ i) (e / D * D + c) * k.val j (e / D * D + c)) / Real.sqrt D)
    (fun j => v.val j e)

theorem psiLayer_rows {n : ℕ} (σ : Equiv.Perm (Fin n)) (c : PsiConfig) (l : PsiLayer) (x : Feat (Fin n)) :
    psiLayer c l (x.rows σ) = (psiLayer c l x).rows σ := by
  unfold psiLayer
  cases hm : c.mode <;>
    simp only [reduceCtorEq, if_true, if_false, rows_norm, selfAttention_rows, rows_add, rows_mlp, rows_dense, rows_tanh]

theorem lapDense_rows {n : ℕ} (σ : Equiv.Perm (Fin n)) (c : LapConfig) (l : LapLayer) (q k hd : Feat (Fin n)) :
    lapDense c l (q.rows σ, k.rows σ) (hd.rows σ) = (lapDense c l (q, k) hd).rows σ := by
  unfold lapDense
  cases hm : c.useNorm <;>
    simp only [reduceCtorEq, if_true, if_false, Bool.false_eq_true, rows_norm, lapAttention_rows, rows_add, rows_dense, rows_tanh]

theorem lapLayers_rows {n : ℕ} (σ : Equiv.Perm (Fin n)) (c : LapConfig) (ls : List LapLayer) (hs hd : Feat (Fin n)) :
    lapLayers c ls (hs.rows σ) (hd.rows σ) = (lapLayers c ls hs hd).rows σ := by
  induction ls generalizing hs hd with
  | nil => rfl
  | cons l ls ih =>
    simp only [lapLayers]
    rw [rows_qkBlock, rows_projectQK, lapDense_rows, ih]

theorem spins_eq (i : Fin (nu + nd)) : spins i = if i.val < nu then (1 : ℝ) else -1 :=
  append_eq (fun _ => (1 : ℝ)) (fun _ => -1) i

theorem embedSpin_rows (σ : Equiv.Perm (Fin (nu + nd))) (h : SameSpin nu σ) (P : Dense) (b : Bool) (o : ℕ)
    (x : Feat (Fin (nu + nd))) : embedSpin P b o (x.rows σ) = (embedSpin P b o x).rows σ := by
  unfold embedSpin
  rw [← rows_dense, ← rows_cat]
  congr 2
  refine congrArg (Feat.mk 1) ?_
  funext i k
  change spins i = spins (σ i)
  rw [spins_eq, spins_eq, if_congr (h i) rfl rfl]

theorem psiformer_rows (σ : Equiv.Perm (Fin (nu + nd))) (h : SameSpin nu σ) (c : PsiConfig) (inp : Dense) (ls : List PsiLayer)
    (x : Feat (Fin (nu + nd))) : psiformer c inp ls (x.rows σ) = (psiformer c inp ls x).rows σ := by
  unfold psiformer
  rw [embedSpin_rows σ h]
  generalize embedSpin inp c.inputBias (c.heads * c.headsDim) x = y
  induction ls generalizing y with
  | nil => rfl
  | cons l ls ih => simp only [List.foldl_cons, psiLayer_rows, ih]

theorem lapnet_rows (σ : Equiv.Perm (Fin (nu + nd))) (h : SameSpin nu σ) (c : LapConfig) (inp : Dense) (ls : List LapLayer)
    (x : Feat (Fin (nu + nd))) : lapnet c inp ls (x.rows σ) = (lapnet c inp ls x).rows σ := by
  unfold lapnet
  simp only [embedSpin_rows σ h, lapLayers_rows]

/-- An embedding with its electrons relabelled. -/
def Embedding.rows {n na f : ℕ} (σ : Equiv.Perm (Fin n)) (e : Embedding n na f) : Embedding n na f :=
  ⟨e.ae.rows σ, e.ee.rows (fun p => (σ p.1, σ p.2)), fun i => e.rAe (σ i), fun i => e.aeVec (σ i)⟩

theorem pairWithin_perm {n d : ℕ} (σ : Equiv.Perm (Fin n)) (r : Fin n → Vec d) :
    pairWithin (fun i => r (σ i)) = (fun i j => (pairWithin r).1 (σ i) (σ j), fun i j => (pairWithin r).2 (σ i) (σ j)) := by
  unfold pairWithin
  simp only [EmbeddingLike.apply_eq_iff_eq]

theorem moleculeFeatures_rows {n na d : ℕ} (σ : Equiv.Perm (Fin n)) (rs : Bool) (r : Fin n → Vec d) (a : Fin na → Vec d) :
    moleculeFeatures rs (fun i => r (σ i)) a = (moleculeFeatures rs r a).rows σ := by
  unfold moleculeFeatures
  rw [pairWithin_perm]
  cases rs <;> rfl

theorem solidFeatures_rows {n na : ℕ} (σ : Equiv.Perm (Fin n)) (C : SolidCell) (r : Fin n → Vec 3) (a : Fin na → Vec 3) :
    solidFeatures C (fun i => r (σ i)) a = (solidFeatures C r a).rows σ := by
  unfold solidFeatures Embedding.rows
  simp only [Feat.rows, flatAtoms, EmbeddingLike.apply_eq_iff_eq]

theorem splitDense_val (P : OrbParams) (b : Bool) (o : ℕ) (x : Feat (Fin (nu + nd))) (hs : 0 < nu ∧ 0 < nd) (i : Fin (nu + nd)) (k : ℕ) :
    (splitDense P b o x).val i k = if i.val < nu then (dense P.up b o x).val i k else (dense P.down b o x).val i k := by
  unfold splitDense
  rw [if_pos hs]
  simp only [rows_dense]
  have := append_eq (nu := nu) (nd := nd) (dense P.up b o x).val (dense P.down b o x).val i
  simp only [Feat.rows]
  rw [this]
  split_ifs <;> rfl

theorem orbitalProjection_rows (σ : Equiv.Perm (Fin (nu + nd))) (h : SameSpin nu σ) (P : OrbParams) (sp b : Bool) (K : ℕ)
    (x : Feat (Fin (nu + nd))) (k : Fin K) (i j : Fin (nu + nd)) :
    orbitalProjection P sp b K (x.rows σ) k i j = orbitalProjection P sp b K x k (σ i) j := by
  unfold orbitalProjection
  by_cases hs : sp ∧ 0 < nu ∧ 0 < nd
  · simp only [if_pos hs, splitDense_val P b _ _ hs.2]
    rw [if_congr (h i) rfl rfl]
    rfl
  · simp only [if_neg hs]
    rfl

theorem envelope_rows {na f : ℕ} (σ : Equiv.Perm (Fin (nu + nd))) (h : SameSpin nu σ) (t : EnvType) (up down : EnvParams) (sp : Bool)
    (K : ℕ) (v : Fin (nu + nd) → Fin na → Fin f → ℝ) (r : Fin (nu + nd) → Fin na → ℝ) (k : Fin K) (i o : Fin (nu + nd)) :
    envelope t up down sp K (fun i => v (σ i)) (fun i => r (σ i)) k i o = envelope t up down sp K v r k (σ i) o := by
  unfold envelope
  by_cases hs : sp ∧ 0 < nu ∧ 0 < nd
  · simp only [if_pos hs]
    have e1 := append_eq (nu := nu) (nd := nd) (fun i => envRow t up (r (σ i)) (v (σ i)) k o) (fun i => envRow t down (r (σ i)) (v (σ i)) k o) i
    have e2 := append_eq (nu := nu) (nd := nd) (fun i => envRow t up (r i) (v i) k o) (fun i => envRow t down (r i) (v i) k o) (σ i)
    refine (e1.trans ?_).trans e2.symm
    rw [if_congr (h i) rfl rfl]
  · simp only [if_neg hs]

theorem orbitals_rows {na f : ℕ} (σ : Equiv.Perm (Fin (nu + nd))) (h : SameSpin nu σ) (O : OutConfig) (P : OutParams)
    (x : Feat (Fin (nu + nd))) (e : Embedding (nu + nd) na f) (k : Fin O.ndets) :
    orbitals O P (x.rows σ) (e.rows σ) k = (orbitals O P x e k).submatrix σ id := by
  funext i j
  unfold orbitals Embedding.rows
  rw [orbitalProjection_rows σ h, envelope_rows σ h]
  rfl

/-! ### Determinants -/

theorem det_rows {n : ℕ} {R : Type} [CommRing R] (σ : Equiv.Perm (Fin n)) (M : Matrix (Fin n) (Fin n) R) :
    (M.submatrix σ id).det = (Equiv.Perm.sign σ : ℤ) * M.det := by
  rw [Matrix.det_permute]

/-- The sum over pairs `i < j` of a symmetric function, doubled. -/
theorem triuSum_double {m : ℕ} (f : Fin m → Fin m → ℝ) (hf : ∀ i j, f i j = f j i) :
    2 * triuSum f = ∑ i, ∑ j, if i = j then 0 else f i j := by
  have e : triuSum f = ∑ i, ∑ j, if j < i then f i j else 0 := by
    unfold triuSum
    rw [Finset.sum_comm]
    exact Finset.sum_congr rfl fun i _ => Finset.sum_congr rfl fun j _ => by rw [hf]
  rw [two_mul]
  nth_rewrite 2 [e]
  unfold triuSum
  rw [← Finset.sum_add_distrib]
  refine Finset.sum_congr rfl fun i _ => ?_
  rw [← Finset.sum_add_distrib]
  refine Finset.sum_congr rfl fun j _ => ?_
  rcases lt_trichotomy i j with h | h | h
  · simp [h, h.ne, h.not_gt]
  · simp [h]
  · simp [h, h.ne', h.not_gt]

theorem jastrow_perm (σ : Equiv.Perm (Fin (nu + nd))) (h : SameSpin nu σ) (p q : ℝ) (r : Fin (nu + nd) → Fin (nu + nd) → ℝ)
    (hr : ∀ i j, r i j = r j i) : jastrow p q (fun i j => r (σ i) (σ j)) = jastrow p q r := by
  unfold jastrow
  have key : ∀ (s : Fin (nu + nd) → Fin (nu + nd) → ℝ), (∀ i j, s i j = s j i) →
      2 * triuSum (fun i j : Fin nu => cusp (s (Fin.castAdd nd i) (Fin.castAdd nd j)) 0.25 p)
        = ∑ i : Fin nu, ∑ j : Fin nu, (fun a b : Fin (nu + nd) => if a = b then 0 else cusp (s a b) 0.25 p)
            (Fin.castAdd nd i) (Fin.castAdd nd j) := by
    intro s hs
    rw [triuSum_double _ (fun i j => by rw [hs])]
    simp
  have keyd : ∀ (s : Fin (nu + nd) → Fin (nu + nd) → ℝ), (∀ i j, s i j = s j i) →
      2 * triuSum (fun i j : Fin nd => cusp (s (Fin.natAdd nu i) (Fin.natAdd nu j)) 0.25 p)
        = ∑ i : Fin nd, ∑ j : Fin nd, (fun a b : Fin (nu + nd) => if a = b then 0 else cusp (s a b) 0.25 p)
            (Fin.natAdd nu i) (Fin.natAdd nu j) := by
    intro s hs
    rw [triuSum_double _ (fun i j => by rw [hs])]
    simp
  have a1 : triuSum (fun i j : Fin nu => cusp (r (σ (Fin.castAdd nd i)) (σ (Fin.castAdd nd j))) 0.25 p)
      = triuSum (fun i j : Fin nu => cusp (r (Fin.castAdd nd i) (Fin.castAdd nd j)) 0.25 p) := by
    have e1 := key (fun i j => r (σ i) (σ j)) (fun i j => hr _ _)
    have e2 := key r hr
    have e3 : (∑ i : Fin nu, ∑ j : Fin nu, (fun a b : Fin (nu + nd) => if a = b then 0 else cusp (r (σ a) (σ b)) 0.25 p)
            (Fin.castAdd nd i) (Fin.castAdd nd j))
        = ∑ i : Fin nu, ∑ j : Fin nu, (fun a b : Fin (nu + nd) => if a = b then 0 else cusp (r a b) 0.25 p)
            (Fin.castAdd nd i) (Fin.castAdd nd j) := by
      rw [← sum_up_perm σ h (fun a => ∑ j : Fin nu, (fun a b : Fin (nu + nd) => if a = b then 0 else cusp (r a b) 0.25 p) a (Fin.castAdd nd j))]
      refine Finset.sum_congr rfl fun i _ => ?_
      rw [← sum_up_perm σ h (fun b => (fun a b : Fin (nu + nd) => if a = b then 0 else cusp (r a b) 0.25 p) (σ (Fin.castAdd nd i)) b)]
      simp
    linarith
  have a2 : triuSum (fun i j : Fin nd => cusp (r (σ (Fin.natAdd nu i)) (σ (Fin.natAdd nu j))) 0.25 p)
      = triuSum (fun i j : Fin nd => cusp (r (Fin.natAdd nu i) (Fin.natAdd nu j)) 0.25 p) := by
    have e1 := keyd (fun i j => r (σ i) (σ j)) (fun i j => hr _ _)
    have e2 := keyd r hr
    have e3 : (∑ i : Fin nd, ∑ j : Fin nd, (fun a b : Fin (nu + nd) => if a = b then 0 else cusp (r (σ a) (σ b)) 0.25 p)
            (Fin.natAdd nu i) (Fin.natAdd nu j))
        = ∑ i : Fin nd, ∑ j : Fin nd, (fun a b : Fin (nu + nd) => if a = b then 0 else cusp (r a b) 0.25 p)
            (Fin.natAdd nu i) (Fin.natAdd nu j) := by
      rw [← sum_down_perm σ h (fun a => ∑ j : Fin nd, (fun a b : Fin (nu + nd) => if a = b then 0 else cusp (r a b) 0.25 p) a (Fin.natAdd nu j))]
      refine Finset.sum_congr rfl fun i _ => ?_
      rw [← sum_down_perm σ h (fun b => (fun a b : Fin (nu + nd) => if a = b then 0 else cusp (r a b) 0.25 p) (σ (Fin.natAdd nu i)) b)]
      simp
    linarith
  have a3 : (∑ i : Fin nu, ∑ j : Fin nd, cusp (r (σ (Fin.castAdd nd i)) (σ (Fin.natAdd nu j))) 0.5 q)
      = ∑ i : Fin nu, ∑ j : Fin nd, cusp (r (Fin.castAdd nd i) (Fin.natAdd nu j)) 0.5 q := by
    rw [← sum_up_perm σ h (fun a => ∑ j : Fin nd, cusp (r a (Fin.natAdd nu j)) 0.5 q)]
    refine Finset.sum_congr rfl fun i _ => ?_
    rw [← sum_down_perm σ h (fun b => cusp (r (σ (Fin.castAdd nd i)) b) 0.5 q)]
  rw [a1, a2, a3]

end Jaqmc.Wf
