import Mathlib.Analysis.SpecialFunctions.Complex.Log
import Mathlib.LinearAlgebra.Matrix.Determinant.Basic
import Mathlib.Data.Sign.Basic
import Mathlib.Order.WithBot
import Verif.Model.Geometry
/-!
Model of the neural-network wavefunctions for molecules and solids:
`wavefunction/{input/atomic,backbone/ferminet,backbone/psiformer,backbone/lapnet,output/orbital,output/envelope,
output/logdet,jastrow}.py`, `app/molecule/wavefunction/{ferminet,psiformer,lapnet}.py`, `app/solid/wavefunction.py`.

Exact real and complex arithmetic.  The electron axis has length `nu + nd`, the first `nu` electrons being spin-up.
A two-dimensional feature array is a `Feat`: a width and the entries (those beyond the width are never read).  Parameters
are arbitrary functions of their indices, so every value of every parameter array of the right shape is covered
(weight initialisation is not modelled).  Division by zero is `0` in Lean; the code gives NaN or infinity there
(`r / r` features of an electron on a nucleus, a Jastrow pole `alpha + r = 0`).
-/
namespace Jaqmc.Wf
open Geometry Matrix
open scoped Classical BigOperators

/-- An array of shape `(rows, width)`; `ι` indexes the rows (electrons, or pairs of electrons). -/
structure Feat (ι : Type) where
  width : ℕ
  val : ι → ℕ → ℝ

/-- Rows taken from another array (slicing or permuting the leading axes). -/
def Feat.rows {ι κ : Type} (f : κ → ι) (h : Feat ι) : Feat κ := ⟨h.width, fun i => h.val (f i)⟩

/-- `jnp.concatenate([x, y], axis=-1)`. -/
noncomputable def Feat.cat {ι : Type} (x y : Feat ι) : Feat ι :=
  ⟨x.width + y.width, fun i k => if k < x.width then x.val i k else y.val i (k - x.width)⟩

/-- Parameters of `nn.Dense` / `nn.DenseGeneral` (output axes flattened). -/
structure Dense where
  kernel : ℕ → ℕ → ℝ
  bias : ℕ → ℝ

/-- `nn.Dense(out, use_bias=useBias)(x)`: acts on the last axis. -/
noncomputable def dense {ι : Type} (P : Dense) (useBias : Bool) (out : ℕ) (x : Feat ι) : Feat ι :=
  ⟨out, fun i k => (∑ j ∈ Finset.range x.width, x.val i j * P.kernel j k) + if useBias then P.bias k else 0⟩

/-- `nn.tanh(x)`. -/
noncomputable def tanhF {ι : Type} (x : Feat ι) : Feat ι := ⟨x.width, fun i k => Real.tanh (x.val i k)⟩

/-- `x + y`. -/
def addF {ι : Type} (x y : Feat ι) : Feat ι := ⟨x.width, fun i k => x.val i k + y.val i k⟩

/-! ### Channels, utils/array.py -/

section
variable {nu nd : ℕ}

/-- `x[:n_up]`. -/
def upRows {α : Type} (x : Fin (nu + nd) → α) : Fin nu → α := fun i => x (Fin.castAdd nd i)

/-- `x[n_up:]`. -/
def downRows {α : Type} (x : Fin (nu + nd) → α) : Fin nd → α := fun i => x (Fin.natAdd nu i)

/-- `split_nonempty_channels(x, nspins)`, array.py:24-46, on an array with `n_up + n_down` rows (see C42 for the
general function): the two slices when both channels are occupied, otherwise `[x]`. -/
noncomputable def splitRows {α : Type} (x : Fin (nu + nd) → α) : List ((m : ℕ) × (Fin m → α)) :=
  if 0 < nu ∧ 0 < nd then [⟨nu, upRows x⟩, ⟨nd, downRows x⟩] else [⟨nu + nd, x⟩]

/-! ### FermiNet backbone -/

/-- `jnp.mean(a, axis=0)`. -/
noncomputable def meanRows {m : ℕ} (a : Fin m → ℝ) : ℝ := (∑ i, a i) / m

/-- `aggregate_features`, ferminet.py:65-90. -/
noncomputable def aggregate (h1 : Feat (Fin (nu + nd))) (h2 : Feat (Fin (nu + nd) × Fin (nu + nd))) : Feat (Fin (nu + nd)) :=
  let g1 : List (Feat (Fin (nu + nd))) := (splitRows (fun i => h1.val i)).map
    (fun c => ⟨h1.width, fun _ k => meanRows (fun i => c.2 i k)⟩)
  let g2 : List (Feat (Fin (nu + nd))) := (splitRows (fun j i => h2.val (j, i))).map
    (fun c => ⟨h2.width, fun i k => meanRows (fun j => c.2 j i k)⟩)
  (g1 ++ g2).foldl Feat.cat h1

/-- `residual`, ferminet.py:60-63 (the leading axes always agree). -/
noncomputable def residual {ι : Type} (x y : Feat ι) : Feat ι :=
  if x.width = y.width then ⟨x.width, fun i k => (x.val i k + y.val i k) / Real.sqrt 2⟩ else y

/-- One entry of `hidden_dims` with the parameters of its dense layers. -/
structure FermiLayer where
  dimSingle : ℕ
  dimDouble : ℕ
  single : Dense
  double : Dense

/-- `_update_single_stream`, ferminet.py:51-54. -/
noncomputable def updateSingle (l : FermiLayer) (h1 : Feat (Fin (nu + nd)))
    (h2 : Feat (Fin (nu + nd) × Fin (nu + nd))) : Feat (Fin (nu + nd)) :=
  residual h1 (tanhF (dense l.single true l.dimSingle (aggregate h1 h2)))

/-- `_update_double_stream`, ferminet.py:56-58. -/
noncomputable def updateDouble {ι : Type} (l : FermiLayer) (h2 : Feat ι) : Feat ι :=
  residual h2 (tanhF (dense l.double true l.dimDouble h2))

/-- `FermiLayers.__call__`, ferminet.py:30-49. -/
noncomputable def fermiLayers (useLast : Bool) : List FermiLayer → Feat (Fin (nu + nd)) →
    Feat (Fin (nu + nd) × Fin (nu + nd)) → Feat (Fin (nu + nd)) × Feat (Fin (nu + nd) × Fin (nu + nd))
  | [], h1, h2 => (h1, h2)
  | [l], h1, h2 =>
    let h1' := updateSingle l h1 h2
    if useLast then
      let h2' := updateDouble l h2
      (aggregate h1' h2', h2')
    else (h1', h2)
  | l :: l' :: ls, h1, h2 => fermiLayers useLast (l' :: ls) (updateSingle l h1 h2) (updateDouble l h2)

/-! ### Psiformer backbone -/

/-- Parameters of `nn.LayerNorm`. -/
structure Norm where
  scale : ℕ → ℝ
  bias : ℕ → ℝ

/-- `nn.LayerNorm(epsilon=eps)(x)`: over the last axis, with the fast variance `max(0, E[x²] - E[x]²)`. -/
noncomputable def layerNorm {ι : Type} (P : Norm) (eps : ℝ) (x : Feat ι) : Feat ι :=
  ⟨x.width, fun i k =>
    let mean := (∑ j ∈ Finset.range x.width, x.val i j) / x.width
    let mean2 := (∑ j ∈ Finset.range x.width, x.val i j ^ 2) / x.width
    let var := max 0 (mean2 - mean ^ 2)
    (x.val i k - mean) * (P.scale k / Real.sqrt (var + eps)) + P.bias k⟩

/-- `jax.nn.softmax(logits, axis=-1)` on one row, with the subtracted maximum. -/
noncomputable def softmax {n : ℕ} (f : Fin n → ℝ) (j : Fin n) : ℝ :=
  Real.exp (f j - ⨆ l, f l) / ∑ l, Real.exp (f l - ⨆ l', f l')

/-- Parameters of `nn.MultiHeadDotProductAttention`. -/
structure Attention where
  query : Dense
  key : Dense
  value : Dense
  out : Dense

/-- `nn.MultiHeadDotProductAttention(num_heads, qkv_features=heads*dim, out_features=heads*dim)(x)` (self-attention,
no mask, no dropout); head `h`, component `c` is column `h * dim + c`. -/
noncomputable def selfAttention {n : ℕ} (P : Attention) (useBias : Bool) (heads dim : ℕ) (x : Feat (Fin n)) : Feat (Fin n) :=
  let q := dense P.query useBias (heads * dim) x
  let k := dense P.key useBias (heads * dim) x
  let v := dense P.value useBias (heads * dim) x
  let logits := fun (h : ℕ) (i j : Fin n) =>
    ∑ c ∈ Finset.range dim, (q.val i (h * dim + c) / Real.sqrt dim) * k.val j (h * dim + c)
  dense P.out useBias (heads * dim)
    ⟨heads * dim, fun i e => ∑ j, softmax (logits (e / dim) i) j * v.val j e⟩

/-- `LayerNormMode`, psiformer.py:13-26. -/
inductive NormMode
  | pre | post | null
  deriving DecidableEq

/-- Parameters of one `PsiformerLayer`. -/
structure PsiLayer where
  norm1 : Norm
  attention : Attention
  norm2 : Norm
  mlp : List (ℕ × Dense)
  mlpOut : Dense
  norm3 : Norm

/-- Static configuration of `PsiformerBackbone`, psiformer.py:134-141. -/
structure PsiConfig where
  heads : ℕ
  headsDim : ℕ
  mode : NormMode
  withBias : Bool
  inputBias : Bool

/-- The MLP loop, psiformer.py:91-92. -/
noncomputable def mlpLoop {ι : Type} : List (ℕ × Dense) → Feat ι → Feat ι
  | [], x => x
  | (d, P) :: ls, x => mlpLoop ls (tanhF (dense P true d x))

/-- `PsiformerLayer.__call__`, psiformer.py:61-99. -/
noncomputable def psiLayer {n : ℕ} (c : PsiConfig) (l : PsiLayer) (x : Feat (Fin n)) : Feat (Fin n) :=
  let dim := c.heads * c.headsDim
  let xIn := if c.mode = .pre then layerNorm l.norm1 1e-5 x else x
  let x1 := addF x (selfAttention l.attention c.withBias c.heads c.headsDim xIn)
  let x2 := if c.mode = .post then layerNorm l.norm2 1e-5 x1 else x1
  let m0 := if c.mode = .pre then layerNorm l.norm2 1e-5 x1 else x2
  let m1 := tanhF (dense l.mlpOut true dim (mlpLoop l.mlp m0))
  let x3 := addF x2 m1
  if c.mode = .post then layerNorm l.norm3 1e-5 x3 else x3

/-- The spin encoding, psiformer.py:171 and _backbone.py:261: `+1` for the first `n_up` electrons, else `-1`. -/
def spins : Fin (nu + nd) → ℝ := Fin.append (fun _ => 1) (fun _ => -1)

/-- Concatenating the spin feature and the input projection, psiformer.py:174-177. -/
noncomputable def embedSpin (P : Dense) (useBias : Bool) (dim : ℕ) (h : Feat (Fin (nu + nd))) : Feat (Fin (nu + nd)) :=
  dense P useBias dim (h.cat ⟨1, fun i _ => spins i⟩)

/-- `PsiformerBackbone.__call__`, psiformer.py:144-187 (the electron count is in the type). -/
noncomputable def psiformer (c : PsiConfig) (input : Dense) (layers : List PsiLayer) (h : Feat (Fin (nu + nd))) :
    Feat (Fin (nu + nd)) :=
  layers.foldl (fun x l => psiLayer c l x) (embedSpin input c.inputBias (c.heads * c.headsDim) h)

/-! ### LapNet backbone -/

/-- `lapnet_sparse_attention`, _attention.py:20-34. -/
noncomputable def lapAttention {n : ℕ} (heads dim : ℕ) (q k v : Feat (Fin n)) : Feat (Fin n) :=
  let logits := fun (h : ℕ) (i j : Fin n) =>
    (∑ c ∈ Finset.range dim, q.val i (h * dim + c) * k.val j (h * dim + c)) / Real.sqrt dim
  ⟨heads * dim, fun i e => ∑ j, softmax (logits (e / dim) i) j * v.val j e⟩

/-- Parameters of one `LapNetLayer` (`updates`: the `qk_update_layers`). -/
structure LapLayer where
  qk : Dense
  value : Dense
  out : Dense
  valueUpdate : Dense
  updates : List Dense
  qkNorm : Norm
  valueNorm : Norm
  postNorm : Norm

/-- Static configuration of `LapNetBackbone`, _backbone.py:160-167. -/
structure LapConfig where
  heads : ℕ
  headsDim : ℕ
  useNorm : Bool
  inputBias : Bool
  backboneBias : Bool

/-- `project_qk_stream`, _backbone.py:113-124: the two halves of the projection. -/
noncomputable def projectQK {ι : Type} (c : LapConfig) (l : LapLayer) (hs : Feat ι) : Feat ι × Feat ι :=
  let dim := c.heads * c.headsDim
  let p := dense l.qk c.backboneBias (2 * dim) (if c.useNorm then layerNorm l.qkNorm 1e-6 hs else hs)
  (⟨dim, fun i k => p.val i k⟩, ⟨dim, fun i k => p.val i (dim + k)⟩)

/-- `qk_stream_block`, _backbone.py:126-137. -/
noncomputable def qkBlock {ι : Type} (c : LapConfig) (l : LapLayer) (hs : Feat ι) : Feat ι :=
  l.updates.foldl (fun x P => addF x (tanhF (dense P c.backboneBias (c.heads * c.headsDim) x))) hs

/-- `LapNetLayer.dense_block`, _backbone.py:66-111. -/
noncomputable def lapDense {n : ℕ} (c : LapConfig) (l : LapLayer) (qk : Feat (Fin n) × Feat (Fin n)) (hd : Feat (Fin n)) :
    Feat (Fin n) :=
  let dim := c.heads * c.headsDim
  let value := dense l.value c.backboneBias dim (if c.useNorm then layerNorm l.valueNorm 1e-6 hd else hd)
  let att := dense l.out c.backboneBias dim (lapAttention c.heads c.headsDim qk.1 qk.2 value)
  let res := addF hd att
  let resN := if c.useNorm then layerNorm l.postNorm 1e-6 res else res
  addF res (tanhF (dense l.valueUpdate c.backboneBias dim resN))

/-- `individual_stream_block` (under `vmap`) and `dense_block`, _backbone.py:191-239, interleaved layer by layer: layer `l`
reads the individual stream `hs` as it was before its own local updates. -/
noncomputable def lapLayers {n : ℕ} (c : LapConfig) : List LapLayer → Feat (Fin n) → Feat (Fin n) → Feat (Fin n)
  | [], _, hd => hd
  | l :: ls, hs, hd => lapLayers c ls (qkBlock c l hs) (lapDense c l (projectQK c l hs) hd)

/-- `LapNetBackbone.__call__`, _backbone.py:241-263. -/
noncomputable def lapnet (c : LapConfig) (input : Dense) (layers : List LapLayer) (h : Feat (Fin (nu + nd))) :
    Feat (Fin (nu + nd)) :=
  let hs := embedSpin input c.inputBias (c.heads * c.headsDim) h
  lapLayers c layers hs hs

/-! ### Input features -/

/-- `AtomicEmbedding`, atomic.py:19-34. -/
structure Embedding (n na f : ℕ) where
  ae : Feat (Fin n)
  ee : Feat (Fin n × Fin n)
  rAe : Fin n → Fin na → ℝ
  aeVec : Fin n → Fin na → Fin f → ℝ

/-- `jnp.concatenate((r[..., None], vec), axis=-1)` for one pair. -/
noncomputable def rVec {f : ℕ} (r : ℝ) (v : Fin f → ℝ) (c : ℕ) : ℝ :=
  if c = 0 then r else if h : c - 1 < f then v ⟨c - 1, h⟩ else 0

/-- `jnp.reshape(ae_features, [n, -1])`: the features of all atoms in one row. -/
noncomputable def flatAtoms {n na f : ℕ} (r : Fin n → Fin na → ℝ) (v : Fin n → Fin na → Fin f → ℝ) : Feat (Fin n) :=
  ⟨na * (f + 1), fun i k => if h : k / (f + 1) < na then rVec (r i ⟨_, h⟩) (v i ⟨_, h⟩) (k % (f + 1)) else 0⟩

/-- `MoleculeFeatures.__call__`, atomic.py:46-79. -/
noncomputable def moleculeFeatures {n na d : ℕ} (rescale : Bool) (electrons : Fin n → Vec d) (atoms : Fin na → Vec d) :
    Embedding n na d :=
  let ee := pairWithin electrons
  let ea := pairBetween electrons atoms
  let sc := fun r : ℝ => Real.log (1 + r)
  { ae := if rescale then flatAtoms (fun i a => sc (ea.2 i a)) (fun i a c => ea.1 i a c * sc (ea.2 i a) / ea.2 i a)
      else flatAtoms ea.2 ea.1
    ee := if rescale then ⟨d + 1, fun p => rVec (sc (ee.2 p.1 p.2)) (fun c => ee.1 p.1 p.2 c * sc (ee.2 p.1 p.2) / ee.2 p.1 p.2)⟩
      else ⟨d + 1, fun p => rVec (ee.2 p.1 p.2) (ee.1 p.1 p.2)⟩
    rAe := ea.2
    aeVec := ea.1 }

/-- `DistanceType`, pbc.py:13-71. -/
inductive DistType
  | tri | nu
  deriving DecidableEq

/-- `ndim_feat` of the relative coordinates (6 for `tri`, 3 for `nu`). -/
def DistType.feat : DistType → ℕ
  | .tri => 6
  | .nu => 3

/-- `get_distance_function(distance_type)`, pbc.py:327-347, on one displacement: distance and relative coordinates. -/
noncomputable def DistType.eval (t : DistType) {s : ℕ} (a b : Matrix (Fin s) (Fin 3) ℝ) (r : Vec 3) : ℝ × (Fin t.feat → ℝ) :=
  match t with
  | .tri => ((triDistance a b r).1, fun c : Fin (3 + 3) => Fin.append (triDistance a b r).2.1 (triDistance a b r).2.2 c)
  | .nu => ((nuDistance a b r).1, (nuDistance a b r).2)

/-- The lattices of a periodic system and the feature options, atomic.py:94-97. -/
structure SolidCell where
  sim : Matrix (Fin 3) (Fin 3) ℝ
  prim : Matrix (Fin 3) (Fin 3) ℝ
  dist : DistType
  sym : Symmetry

/-- `SolidFeatures.__call__`, atomic.py:99-147. -/
noncomputable def solidFeatures {n na : ℕ} (C : SolidCell) (electrons : Fin n → Vec 3) (atoms : Fin na → Vec 3) :
    Embedding n na C.dist.feat :=
  let ae := fun (i : Fin n) (a : Fin na) =>
    C.dist.eval (symA C.sym C.prim) (symB C.sym C.prim) (fun k => wrap C.prim (electrons i) k - atoms a k)
  let eye := fun i j : Fin n => if i = j then (1 : ℝ) else 0
  let ee := fun i j : Fin n => C.dist.eval (symA C.sym C.sim) (symB C.sym C.sim)
    (fun k => wrap C.sim (electrons i) k - wrap C.sim (electrons j) k + eye i j)
  { ae := flatAtoms (fun i a => (ae i a).1) (fun i a => (ae i a).2)
    ee := ⟨C.dist.feat + 1, fun p => rVec ((ee p.1 p.2).1 * (1 - eye p.1 p.2)) (fun c => (ee p.1 p.2).2 c * (1 - eye p.1 p.2))⟩
    rAe := fun i a => (ae i a).1
    aeVec := fun i a => (ae i a).2 }

/-! ### Orbitals and envelope -/

/-- Parameters of the (possibly spin-split) orbital projection: one dense layer per channel, `up` also serving as the
shared one. -/
structure OrbParams where
  up : Dense
  down : Dense

/-- `SplitChannelDense.__call__`, orbital.py:24-31: a dense layer per non-empty channel, concatenated. -/
noncomputable def splitDense (P : OrbParams) (useBias : Bool) (out : ℕ) (h : Feat (Fin (nu + nd))) : Feat (Fin (nu + nd)) :=
  if 0 < nu ∧ 0 < nd then
    ⟨out, Fin.append (dense P.up useBias out (h.rows (Fin.castAdd nd))).val (dense P.down useBias out (h.rows (Fin.natAdd nu))).val⟩
  else dense P.up useBias out h

/-- `OrbitalProjection.__call__`, orbital.py:60-78: `(ndets, n, n)`; output index `(det, orbital)` is column
`det * n + orbital`. -/
noncomputable def orbitalProjection (P : OrbParams) (split useBias : Bool) (ndets : ℕ) (h : Feat (Fin (nu + nd))) :
    Fin ndets → Matrix (Fin (nu + nd)) (Fin (nu + nd)) ℝ :=
  let out := ndets * (nu + nd)
  let o := if split ∧ 0 < nu ∧ 0 < nd then splitDense P useBias out h else dense P.up useBias out h
  fun k i j => o.val i (k * (nu + nd) + j)

/-- `EnvelopeType`, envelope.py:16-36. -/
inductive EnvType
  | isotropic | absIsotropic | diagonal | null
  deriving DecidableEq

/-- Parameters of an envelope: `pi[orbital, atom, det]`, `sigma[orbital, atom, (dim,) det]`. -/
structure EnvParams where
  pi : ℕ → ℕ → ℕ → ℝ
  sigma : ℕ → ℕ → ℕ → ℝ
  sigmaDiag : ℕ → ℕ → ℕ → ℕ → ℝ

/-- `_IsotropicEnvelope.__call__` and `_DiagonalEnvelope.__call__`, envelope.py:123-163, for one electron: the value at
determinant `k`, orbital `o`. -/
noncomputable def envRow {na f : ℕ} (t : EnvType) (P : EnvParams) (r : Fin na → ℝ) (v : Fin na → Fin f → ℝ) (k o : ℕ) : ℝ :=
  match t with
  | .isotropic => ∑ a : Fin na, P.pi o a k * Real.exp (P.sigma o a k * -r a)
  | .absIsotropic => ∑ a : Fin na, P.pi o a k * Real.exp (-|P.sigma o a k * r a|)
  | .diagonal => ∑ a : Fin na, P.pi o a k * Real.exp (-Real.sqrt (∑ c : Fin f, (P.sigmaDiag o a c k * v a c) ^ 2))
  | .null => 1

/-- `Envelope.__call__`, envelope.py:58-120: `(ndets, n, n)`; separate parameters per channel when split and both channels are
occupied. -/
noncomputable def envelope {na f : ℕ} (t : EnvType) (up down : EnvParams) (split : Bool) (ndets : ℕ)
    (v : Fin (nu + nd) → Fin na → Fin f → ℝ) (r : Fin (nu + nd) → Fin na → ℝ) (k : Fin ndets) (i o : Fin (nu + nd)) : ℝ :=
  if split ∧ 0 < nu ∧ 0 < nd then
    Fin.append (fun e => envRow t up (upRows r e) (upRows v e) k o) (fun e => envRow t down (downRows r e) (downRows v e) k o) i
  else envRow t up (r i) (v i) k o

/-! ### Determinants, output/logdet.py -/

/-- `jnp.linalg.slogdet` on a real matrix: sign and log absolute determinant (`⊥` is `-inf`). -/
noncomputable def slogdet {n : ℕ} (M : Matrix (Fin n) (Fin n) ℝ) : ℝ × WithBot ℝ :=
  ((SignType.sign M.det : ℝ), if M.det = 0 then ⊥ else ((Real.log |M.det| : ℝ) : WithBot ℝ))

/-- `jnp.linalg.slogdet` on a complex matrix: phase and log absolute determinant. -/
noncomputable def slogdetC {n : ℕ} (M : Matrix (Fin n) (Fin n) ℂ) : ℂ × WithBot ℝ :=
  (if M.det = 0 then 0 else M.det / (‖M.det‖ : ℂ), if M.det = 0 then ⊥ else ((Real.log ‖M.det‖ : ℝ) : WithBot ℝ))

/-- `jnp.exp(x - shift)` for a finite `shift`. -/
noncomputable def expSub (x : WithBot ℝ) (shift : ℝ) : ℝ :=
  match x with
  | ⊥ => 0
  | (x : ℝ) => Real.exp (x - shift)

/-- `jnp.max(logdets)` (`⊥` when every determinant vanishes). -/
noncomputable def logMax {k : ℕ} (l : Fin k → WithBot ℝ) : WithBot ℝ := Finset.univ.sup l

/-- `RealLogDetOutput`, logdet.py:24-37; `none` is NaN. -/
structure RealOut (k : ℕ) where
  signLogpsi : Option ℝ
  logpsi : Option (WithBot ℝ)
  signLogdets : Fin k → ℝ
  absLogdets : Fin k → WithBot ℝ

/-- `ComplexLogDetOutput`, logdet.py:10-21; `some ⊥` is `log 0 = -inf`. -/
structure ComplexOut (k : ℕ) where
  logpsi : Option (WithBot ℂ)
  signLogdets : Fin k → ℂ
  absLogdets : Fin k → WithBot ℝ

/-- `LogDet.__call__` on real orbitals, logdet.py:65-66, 73-79: if every determinant vanishes then
`logdets - logmax` is `-inf - -inf = NaN`. -/
noncomputable def logDet {n k : ℕ} (xs : Fin k → Matrix (Fin n) (Fin n) ℝ) : RealOut k :=
  let s := fun i => (slogdet (xs i)).1
  let l := fun i => (slogdet (xs i)).2
  match logMax l with
  | ⊥ => ⟨none, none, s, l⟩
  | (m : ℝ) =>
    let total := ∑ i, s i * expSub (l i) m
    ⟨some (SignType.sign total : ℝ), some (if total = 0 then ⊥ else ((Real.log |total| + m : ℝ) : WithBot ℝ)), s, l⟩

/-- `LogDet.__call__` on complex orbitals, logdet.py:65-72. -/
noncomputable def logDetC {n k : ℕ} (xs : Fin k → Matrix (Fin n) (Fin n) ℂ) : ComplexOut k :=
  let s := fun i => (slogdetC (xs i)).1
  let l := fun i => (slogdetC (xs i)).2
  match logMax l with
  | ⊥ => ⟨none, s, l⟩
  | (m : ℝ) =>
    let total := ∑ i, s i * (expSub (l i) m : ℂ)
    ⟨some (if total = 0 then ⊥ else ((Complex.log total + m : ℂ) : WithBot ℂ)), s, l⟩

/-! ### Jastrow factor, jastrow.py -/

/-- `_cusp_function`, jastrow.py:107-122. -/
noncomputable def cusp (r c alpha : ℝ) : ℝ := -(c * alpha ^ 2) / (alpha + r)

/-- The sum over `r[jnp.triu_indices(m, k=1)]`. -/
noncomputable def triuSum {m : ℕ} (f : Fin m → Fin m → ℝ) : ℝ := ∑ i, ∑ j, if i < j then f i j else 0

/-- `SimpleEEJastrow.__call__`, jastrow.py:48-104 (empty blocks contribute empty sums). -/
noncomputable def jastrow (alphaPar alphaAnti : ℝ) (r : Fin (nu + nd) → Fin (nu + nd) → ℝ) : ℝ :=
  (triuSum (fun i j : Fin nu => cusp (r (Fin.castAdd nd i) (Fin.castAdd nd j)) 0.25 alphaPar)
    + triuSum (fun i j : Fin nd => cusp (r (Fin.natAdd nu i) (Fin.natAdd nu j)) 0.25 alphaPar))
    + ∑ i : Fin nu, ∑ j : Fin nd, cusp (r (Fin.castAdd nd i) (Fin.natAdd nu j)) 0.5 alphaAnti

/-! ### The wavefunctions -/

/-- The output layers shared by all molecule wavefunctions. -/
structure OutParams where
  orb : OrbParams
  envUp : EnvParams
  envDown : EnvParams

/-- Options of the output layers. -/
structure OutConfig where
  ndets : ℕ
  env : EnvType
  split : Bool
  bias : Bool

/-- `orbital_layer(h_one) * envelope_layer(ae_vec, r_ae)`. -/
noncomputable def orbitals {na f : ℕ} (O : OutConfig) (P : OutParams) (h : Feat (Fin (nu + nd))) (e : Embedding (nu + nd) na f) :
    Fin O.ndets → Matrix (Fin (nu + nd)) (Fin (nu + nd)) ℝ :=
  fun k i j => orbitalProjection P.orb O.split O.bias O.ndets h k i j
    * envelope O.env P.envUp P.envDown O.split O.ndets e.aeVec e.rAe k i j

/-- Adding the Jastrow factor in log space, psiformer.py:140-144 and lapnet.py:123-125 (app/molecule). -/
noncomputable def addJastrow {k : ℕ} (o : RealOut k) (j : ℝ) : RealOut k :=
  { o with logpsi := o.logpsi.map (fun l => l.map (· + j)) }

variable {na d : ℕ}

/-- `FermiNetWavefunction`, app/molecule/wavefunction/ferminet.py:21-74 (`use_bias=False` in the orbital layer). -/
structure FermiNet where
  layers : List FermiLayer
  useLast : Bool
  ndets : ℕ
  env : EnvType
  split : Bool
  out : OutParams

/-- `FermiNetWavefunction.get_orbitals`, ferminet.py:79-96. -/
noncomputable def FermiNet.orbitals (W : FermiNet) (electrons : Fin (nu + nd) → Vec d) (atoms : Fin na → Vec d) :
    Fin W.ndets → Matrix (Fin (nu + nd)) (Fin (nu + nd)) ℝ :=
  let e := moleculeFeatures false electrons atoms
  Wf.orbitals ⟨W.ndets, W.env, W.split, false⟩ W.out (fermiLayers W.useLast W.layers e.ae e.ee).1 e

/-- `FermiNetWavefunction.__call__`, ferminet.py:76-77. -/
noncomputable def FermiNet.call (W : FermiNet) (electrons : Fin (nu + nd) → Vec d) (atoms : Fin na → Vec d) : RealOut W.ndets :=
  logDet (W.orbitals electrons atoms)

/-- `PsiformerWavefunction`, app/molecule/wavefunction/psiformer.py:38-134; `jastrow = none` for `JastrowType.NONE`,
otherwise the two decay parameters. -/
structure Psiformer where
  cfg : PsiConfig
  input : Dense
  layers : List PsiLayer
  jastrow : Option (ℝ × ℝ)
  rescale : Bool
  ndets : ℕ
  env : EnvType
  split : Bool
  biasOrbitals : Bool
  out : OutParams

/-- `PsiformerWavefunction.get_orbitals`, psiformer.py:148-170. -/
noncomputable def Psiformer.orbitals (W : Psiformer) (electrons : Fin (nu + nd) → Vec d) (atoms : Fin na → Vec d) :
    Fin W.ndets → Matrix (Fin (nu + nd)) (Fin (nu + nd)) ℝ :=
  let e := moleculeFeatures W.rescale electrons atoms
  Wf.orbitals ⟨W.ndets, W.env, W.split, W.biasOrbitals⟩ W.out (psiformer W.cfg W.input W.layers e.ae) e

/-- `PsiformerWavefunction.__call__`, psiformer.py:136-146. -/
noncomputable def Psiformer.call (W : Psiformer) (electrons : Fin (nu + nd) → Vec d) (atoms : Fin na → Vec d) : RealOut W.ndets :=
  match W.jastrow with
  | none => logDet (W.orbitals electrons atoms)
  | some (par, anti) => addJastrow (logDet (W.orbitals electrons atoms)) (Wf.jastrow par anti (pairWithin electrons).2)

/-- `LapNetWavefunction`, app/molecule/wavefunction/lapnet.py:38-119 (`orbitals_spin_split` is always on). -/
structure LapNet where
  cfg : LapConfig
  input : Dense
  layers : List LapLayer
  jastrow : Option (ℝ × ℝ)
  rescale : Bool
  ndets : ℕ
  env : EnvType
  biasOrbitals : Bool
  out : OutParams

/-- `LapNetWavefunction.get_orbitals`, lapnet.py:128-140. -/
noncomputable def LapNet.orbitals (W : LapNet) (electrons : Fin (nu + nd) → Vec d) (atoms : Fin na → Vec d) :
    Fin W.ndets → Matrix (Fin (nu + nd)) (Fin (nu + nd)) ℝ :=
  let e := moleculeFeatures W.rescale electrons atoms
  Wf.orbitals ⟨W.ndets, W.env, true, W.biasOrbitals⟩ W.out (lapnet W.cfg W.input W.layers e.ae) e

/-- `LapNetWavefunction.__call__`, lapnet.py:121-126. -/
noncomputable def LapNet.call (W : LapNet) (electrons : Fin (nu + nd) → Vec d) (atoms : Fin na → Vec d) : RealOut W.ndets :=
  match W.jastrow with
  | none => logDet (W.orbitals electrons atoms)
  | some (par, anti) => addJastrow (logDet (W.orbitals electrons atoms)) (Wf.jastrow par anti (pairWithin electrons).2)

/-- `SolidWavefunction`, app/solid/wavefunction.py:23-89; `imag` are the parameters of the imaginary orbital layer. -/
structure Solid where
  cell : SolidCell
  klist : ℕ → Vec 3
  layers : List FermiLayer
  ndets : ℕ
  env : EnvType
  split : Bool
  out : OutParams
  imag : OrbParams

/-- `SolidWavefunction.get_orbitals`, wavefunction.py:91-114. -/
noncomputable def Solid.orbitals (W : Solid) (electrons : Fin (nu + nd) → Vec 3) (atoms : Fin na → Vec 3) :
    Fin W.ndets → Matrix (Fin (nu + nd)) (Fin (nu + nd)) ℂ :=
  let e := solidFeatures W.cell electrons atoms
  let h := (fermiLayers false W.layers e.ae e.ee).1
  fun k i j =>
    ((orbitalProjection W.out.orb W.split false W.ndets h k i j : ℝ)
      + Complex.I * (orbitalProjection W.imag W.split false W.ndets h k i j : ℝ))
    * (envelope W.env W.out.envUp W.out.envDown W.split W.ndets e.aeVec e.rAe k i j : ℝ)
    * Complex.exp (Complex.I * ((∑ c, electrons i c * W.klist j c : ℝ) : ℂ))

/-- `SolidWavefunction.__call__`, wavefunction.py:116-126. -/
noncomputable def Solid.call (W : Solid) (electrons : Fin (nu + nd) → Vec 3) (atoms : Fin na → Vec 3) : ComplexOut W.ndets :=
  logDetC (W.orbitals electrons atoms)

/-- `SolidWavefunction.phase_logpsi`, wavefunction.py:143-147: phase and log absolute value (a phase is not defined at
`-inf`, where the code gives `exp(1j * 0) = 1`). -/
noncomputable def Solid.phaseLogpsi (W : Solid) (electrons : Fin (nu + nd) → Vec 3) (atoms : Fin na → Vec 3) :
    Option (ℂ × WithBot ℝ) :=
  (W.call electrons atoms).logpsi.map fun l =>
    match l with
    | ⊥ => (1, ⊥)
    | (z : ℂ) => (Complex.exp (Complex.I * (z.im : ℂ)), ((z.re : ℝ) : WithBot ℝ))

end

end Jaqmc.Wf
