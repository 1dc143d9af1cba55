import Verif.Model.SR
/-!
Model of `update_fn` of src/jaqmc/optimizer/sr/jasr.py:352-519 with `prune_inactive=True`, on top of `Model/SR.lean`.
-/
namespace Jaqmc.PruneSR
open Jaqmc.SR Matrix
open scoped Classical

variable {dev m k P Q : ℕ}

/-- `get_idx`, jasr.py:970-973, and `ravel_selected_tree`, jasr.py:958-967, for a row of scores. -/
def getIdx {α : Type} (x : Fin P → α) (e : Fin Q → Fin P) : Fin Q → α := fun q => x (e q)

/-- `set_idx`, jasr.py:976-979. -/
noncomputable def setIdx (x : Fin P → ℝ) (e : Fin Q → Fin P) (val : Fin Q → ℝ) : Fin P → ℝ :=
  fun j => if h : ∃ q, e q = j then val h.choose else x j

/-- The accumulated variance, jasr.py:436-443. -/
noncomputable def accP (C : Config) (e : Fin Q → Fin P) (O : Matrix (Row dev m k) (Fin Q) ℝ) (st : State P) : Fin P → ℝ :=
  match C.beta with
  | some beta =>
    if C.varMode then
      let v := fun q => ∑ r, O r q ^ 2
      let old := getIdx st.accVar e
      setIdx st.accVar e fun q =>
        if v q > C.eps then beta st.counter * old q + (1 - beta st.counter) * normalizeMasked v (fun q => v q > C.eps) q else old q
    else st.accVar
  | none => st.accVar

/-- `scale`, jasr.py:445. -/
noncomputable def scaleP (C : Config) (acc : Fin P → ℝ) (j : Fin P) : ℝ :=
  match C.beta with
  | some _ => 1 / Real.sqrt (acc j + C.eps)
  | none => 1

/-- `momentum`, jasr.py:431. -/
noncomputable def momentum (C : Config) (st : State P) (j : Fin P) : ℝ :=
  match C.mu with
  | some mu => mu st.counter * st.prevDelta j
  | none => 0

/-- `lam`, jasr.py:462-483, from the scores and the scale of the active parameters. -/
noncomputable def lamP (C : Config) (v0 : Row dev m k → ℝ) (O : Matrix (Row dev m k) (Fin Q) ℝ) (scaleA : Fin Q → ℝ) (count : ℕ) : ℝ :=
  lamOf C v0 (lift (gram C.chunks O scaleA)) count

/-- `delta_active`, jasr.py:453-495, from the active parts of the scores, the scale, the scaled gradient and the momentum. -/
noncomputable def deltaActive (C : Config) (v0 : Row dev m k → ℝ) (O : Matrix (Row dev m k) (Fin Q) ℝ) (scaleA sgA pA : Fin Q → ℝ) (count : ℕ) : Fin Q → ℝ :=
  let ug := O *ᵥ sgA
  let up := O *ᵥ pA
  let lam := lamP C v0 O scaleA count
  let gamma := getGamma C count lam
  let F := lift (gram C.chunks O scaleA) + lam • (1 : Matrix (Row dev m k) (Row dev m k) ℝ)
  let w := F⁻¹ *ᵥ ug
  let z := F⁻¹ *ᵥ (fun r => gamma * ug r + up r - (1 - gamma * lam) * w r)
  let otz := Oᵀ *ᵥ z
  fun q => gamma * sgA q + pA q - scaleA q * otz q

/-- The new accumulated variance, jasr.py:498-501. -/
noncomputable def accNew (C : Config) (acc delta : Fin P → ℝ) (st : State P) (j : Fin P) : ℝ :=
  match C.beta with
  | some beta => if C.varMode then acc j else beta st.counter * acc j + (1 - beta st.counter) * (delta j - st.prevDelta j) ^ 2
  | none => acc j

/-- `update_fn` with pruning, jasr.py:352-519; `e` lists the active indices (`active_leaf_indices`); `none` is the `ValueError` of
jasr.py:382-387. -/
noncomputable def prunedUpdate (C : Config) (v0 : Row dev m k → ℝ) (e : Fin Q → Fin P) (raw : Raw dev m k P) (grad : Fin P → ℝ) (st : State P) :
    Option ((Fin P → ℝ) × State P) :=
  if Q = 0 then none else
  let O : Matrix (Row dev m k) (Fin Q) ℝ := score C.clip fun d i a => getIdx (raw d i a) e
  let p := momentum C st
  let acc := accP C e O st
  let scale := scaleP C acc
  let sg : Fin P → ℝ := fun j => scale j * grad j
  let gamma := getGamma C st.counter (lamP C v0 O (getIdx scale e) st.counter)
  let delta := setIdx (fun j => gamma * sg j + p j) e (deltaActive C v0 O (getIdx scale e) (getIdx sg e) (getIdx p e) st.counter)
  some (delta, ⟨st.counter + 1, delta, accNew C acc delta st⟩)

end Jaqmc.PruneSR
