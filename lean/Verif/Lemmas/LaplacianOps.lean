import Mathlib.Analysis.SpecialFunctions.Log.Deriv
import Mathlib.Analysis.SpecialFunctions.Complex.LogDeriv
import Mathlib.Analysis.SpecialFunctions.Sqrt
import Mathlib.Analysis.SpecialFunctions.Trigonometric.ComplexDeriv
import Mathlib.Analysis.SpecialFunctions.Trigonometric.ArctanDeriv
import Mathlib.Analysis.SpecialFunctions.Trigonometric.InverseDeriv
import Mathlib.Analysis.SpecialFunctions.Trigonometric.DerivHyp
import Verif.Model.LaplacianPrims
import Verif.Lemmas.LaplacianWrap
/-! Proof of C44 for multiplication, division, elementwise functions and `dot_general`. -/
namespace Jaqmc.Laplacian
open Spec Filter Topology

variable {κ : Type} [Fintype κ]

/-- `Describes`, over `𝕜`. -/
def DescribesO {𝕜 : Type} [NormedAddCommGroup 𝕜] [NormedSpace ℝ 𝕜] (γ : κ → ℝ → Vec 𝕜) : Operand κ 𝕜 → Prop
  | .plain v => ∀ k, ∀ᶠ s in 𝓝 (0 : ℝ), γ k s = v
  | .tracked n a => ∃ g : κ → ℝ → Fin n → 𝕜, (∀ k, ∀ᶠ s in 𝓝 (0 : ℝ), γ k s = ⟨n, g k s⟩) ∧ CurveLap g a.x a.jac a.lap

def SoundBin {𝕜 : Type} [NormedAddCommGroup 𝕜] [NormedSpace ℝ 𝕜] (f : Vec 𝕜 → Vec 𝕜 → Except String (Vec 𝕜))
    (h : Operand κ 𝕜 → Operand κ 𝕜 → Except String (Operand κ 𝕜)) (ok : Vec 𝕜 → Vec 𝕜 → Prop) : Prop :=
  ∀ γ₁ γ₂ o₁ o₂, DescribesO γ₁ o₁ → DescribesO γ₂ o₂ → ok o₁.primal o₂.primal → ∀ o, h o₁ o₂ = .ok o →
    f o₁.primal o₂.primal = .ok o.primal ∧ ∃ δ, DescribesO δ o ∧ ∀ k, ∀ᶠ s in 𝓝 (0 : ℝ), f (γ₁ k s) (γ₂ k s) = .ok (δ k s)

def SoundUn {𝕜 : Type} [NormedAddCommGroup 𝕜] [NormedSpace ℝ 𝕜] (f : Vec 𝕜 → Except String (Vec 𝕜))
    (h : Operand κ 𝕜 → Except String (Operand κ 𝕜)) (ok : Vec 𝕜 → Prop) : Prop :=
  ∀ γ₁ o₁, DescribesO γ₁ o₁ → ok o₁.primal → ∀ o, h o₁ = .ok o →
    f o₁.primal = .ok o.primal ∧ ∃ δ, DescribesO δ o ∧ ∀ k, ∀ᶠ s in 𝓝 (0 : ℝ), f (γ₁ k s) = .ok (δ k s)

/-! ### From `𝕜` to arrays -/

@[simp] theorem real?_ofReal (v : Vec ℝ) : (Arr.ofReal v).real? = some v := rfl
@[simp] theorem cplx?_ofCplx (v : Vec ℂ) : (Arr.ofCplx v).cplx? = some v := rfl
@[simp] theorem real?_ofCplx (v : Vec ℂ) : (Arr.ofCplx v).real? = none := rfl

omit [Fintype κ] in
theorem primal_ofReal (o : Operand κ ℝ) : (TVal.ofReal o).primal = Arr.ofReal o.primal := by cases o <;> rfl
omit [Fintype κ] in
theorem primal_ofCplx (o : Operand κ ℂ) : (TVal.ofCplx o).primal = Arr.ofCplx o.primal := by cases o <;> rfl

omit [Fintype κ] in
theorem real?_primal {v : TVal κ} {o : Operand κ ℝ} (h : v.real? = some o) : v.primal = Arr.ofReal o.primal := by
  cases v with
  | plain a => cases a with
    | num t w => cases t with
      | real n => simp only [TVal.real?, Option.some.injEq] at h; subst h; rfl
      | cplx n => simp [TVal.real?] at h
    | disc n w => simp [TVal.real?] at h
  | tracked t a => cases t with
    | real n => simp only [TVal.real?, Option.some.injEq] at h; subst h; rfl
    | cplx n => simp [TVal.real?] at h

omit [Fintype κ] in
theorem cplx?_primal {v : TVal κ} {o : Operand κ ℂ} (h : v.cplx? = some o) : v.primal = Arr.ofCplx o.primal := by
  cases v with
  | plain a => cases a with
    | num t w => cases t with
      | real n => simp [TVal.cplx?] at h
      | cplx n => simp only [TVal.cplx?, Option.some.injEq] at h; subst h; rfl
    | disc n w => simp [TVal.cplx?] at h
  | tracked t a => cases t with
    | real n => simp [TVal.cplx?] at h
    | cplx n => simp only [TVal.cplx?, Option.some.injEq] at h; subst h; rfl

theorem describes_real {γ : κ → ℝ → Arr} {v : TVal κ} {o : Operand κ ℝ} (h : v.real? = some o) (hd : Describes γ v) :
    ∃ γ', DescribesO γ' o ∧ ∀ k, ∀ᶠ s in 𝓝 (0 : ℝ), γ k s = Arr.ofReal (γ' k s) := by
  cases v with
  | plain a => cases a with
    | num t w => cases t with
      | real n =>
        simp only [TVal.real?, Option.some.injEq] at h
        subst h
        exact ⟨fun _ _ => ⟨n, w⟩, fun _ => Eventually.of_forall fun _ => rfl, hd⟩
      | cplx n => simp [TVal.real?] at h
    | disc n w => simp [TVal.real?] at h
  | tracked t a => cases t with
    | real n =>
      simp only [TVal.real?, Option.some.injEq] at h
      subst h
      obtain ⟨g, h1, h2⟩ := hd
      exact ⟨fun k s => ⟨n, g k s⟩, ⟨g, fun _ => Eventually.of_forall fun _ => rfl, h2⟩, h1⟩
    | cplx n => simp [TVal.real?] at h

theorem describes_cplx {γ : κ → ℝ → Arr} {v : TVal κ} {o : Operand κ ℂ} (h : v.cplx? = some o) (hd : Describes γ v) :
    ∃ γ', DescribesO γ' o ∧ ∀ k, ∀ᶠ s in 𝓝 (0 : ℝ), γ k s = Arr.ofCplx (γ' k s) := by
  cases v with
  | plain a => cases a with
    | num t w => cases t with
      | real n => simp [TVal.cplx?] at h
      | cplx n =>
        simp only [TVal.cplx?, Option.some.injEq] at h
        subst h
        exact ⟨fun _ _ => ⟨n, w⟩, fun _ => Eventually.of_forall fun _ => rfl, hd⟩
    | disc n w => simp [TVal.cplx?] at h
  | tracked t a => cases t with
    | real n => simp [TVal.cplx?] at h
    | cplx n =>
      simp only [TVal.cplx?, Option.some.injEq] at h
      subst h
      obtain ⟨g, h1, h2⟩ := hd
      exact ⟨fun k s => ⟨n, g k s⟩, ⟨g, fun _ => Eventually.of_forall fun _ => rfl, h2⟩, h1⟩

theorem describes_ofReal {δ : κ → ℝ → Vec ℝ} {o : Operand κ ℝ} (h : DescribesO δ o) :
    Describes (fun k s => Arr.ofReal (δ k s)) (TVal.ofReal o) := by
  cases o with
  | plain v => exact fun k => (h k).mono fun s hs => congrArg Arr.ofReal hs
  | tracked n a =>
    obtain ⟨g, h1, h2⟩ := h
    exact ⟨g, fun k => (h1 k).mono fun s hs => congrArg Arr.ofReal hs, h2⟩

theorem describes_ofCplx {δ : κ → ℝ → Vec ℂ} {o : Operand κ ℂ} (h : DescribesO δ o) :
    Describes (fun k s => Arr.ofCplx (δ k s)) (TVal.ofCplx o) := by
  cases o with
  | plain v => exact fun k => (h k).mono fun s hs => congrArg Arr.ofCplx hs
  | tracked n a =>
    obtain ⟨g, h1, h2⟩ := h
    exact ⟨g, fun k => (h1 k).mono fun s hs => congrArg Arr.ofCplx hs, h2⟩

/-- The condition of a binary primitive. -/
def okBin (okr : Vec ℝ → Vec ℝ → Prop) (okc : Vec ℂ → Vec ℂ → Prop) : List Arr → Prop
  | [a, b] => (∀ u v, a.real? = some u → b.real? = some v → okr u v) ∧
      (∀ u v, a.cplx? = some u → b.cplx? = some v → okc u v)
  | _ => True

def okUn (okr : Vec ℝ → Prop) (okc : Vec ℂ → Prop) : List Arr → Prop
  | [a] => (∀ u, a.real? = some u → okr u) ∧ (∀ u, a.cplx? = some u → okc u)
  | _ => True

theorem bin_sound {fr : Vec ℝ → Vec ℝ → Except String (Vec ℝ)} {fc : Vec ℂ → Vec ℂ → Except String (Vec ℂ)}
    {hr : Operand κ ℝ → Operand κ ℝ → Except String (Operand κ ℝ)} {hc : Operand κ ℂ → Operand κ ℂ → Except String (Operand κ ℂ)}
    {okr : Vec ℝ → Vec ℝ → Prop} {okc : Vec ℂ → Vec ℂ → Prop} (h1 : SoundBin fr hr okr) (h2 : SoundBin fc hc okc) :
    SoundFor (κ := κ) (bindBin fr fc) (ruleBin hr hc) (okBin okr okc) := by
  intro γs vs hd hok outs ho
  match vs, hd with
  | [], _ => simp [ruleBin] at ho
  | [_], _ => simp [ruleBin] at ho
  | _ :: _ :: _ :: _, _ => simp [ruleBin] at ho
  | [v, w], .cons (a := γ) hv (.cons (a := γ') hw .nil) =>
    simp only [ruleBin] at ho
    split at ho
    · rename_i o₁ o₂ e1 e2
      obtain ⟨g1, d1, c1⟩ := describes_real e1 hv
      obtain ⟨g2, d2, c2⟩ := describes_real e2 hw
      cases hh : hr o₁ o₂ with
      | error e => simp [hh, Except.map] at ho
      | ok o =>
        simp only [hh, Except.map, Except.ok.injEq] at ho
        subst ho
        have hok' : okr o₁.primal o₂.primal := hok.1 _ _ (by rw [real?_primal e1]; rfl) (by rw [real?_primal e2]; rfl)
        obtain ⟨r1, δ, r2, r3⟩ := h1 g1 g2 o₁ o₂ d1 d2 hok' o hh
        refine ⟨?_, [fun k s => Arr.ofReal (δ k s)], .cons (describes_ofReal r2) .nil, ?_⟩
        · simp only [List.map_cons, List.map_nil, real?_primal e1, real?_primal e2, primal_ofReal, bindBin, real?_ofReal,
            r1, Except.map]
        · intro k
          filter_upwards [c1 k, c2 k, r3 k] with s s1 s2 s3
          simp only [List.map_cons, List.map_nil, s1, s2, bindBin, real?_ofReal, s3, Except.map]
    · split at ho
      · rename_i o₁ o₂ e1 e2
        obtain ⟨g1, d1, c1⟩ := describes_cplx e1 hv
        obtain ⟨g2, d2, c2⟩ := describes_cplx e2 hw
        cases hh : hc o₁ o₂ with
        | error e => simp [hh, Except.map] at ho
        | ok o =>
          simp only [hh, Except.map, Except.ok.injEq] at ho
          subst ho
          have hok' : okc o₁.primal o₂.primal := hok.2 _ _ (by rw [cplx?_primal e1]; rfl) (by rw [cplx?_primal e2]; rfl)
          obtain ⟨r1, δ, r2, r3⟩ := h2 g1 g2 o₁ o₂ d1 d2 hok' o hh
          refine ⟨?_, [fun k s => Arr.ofCplx (δ k s)], .cons (describes_ofCplx r2) .nil, ?_⟩
          · simp only [List.map_cons, List.map_nil, cplx?_primal e1, cplx?_primal e2, primal_ofCplx, bindBin, real?_ofCplx,
              cplx?_ofCplx, r1, Except.map]
          · intro k
            filter_upwards [c1 k, c2 k, r3 k] with s s1 s2 s3
            simp only [List.map_cons, List.map_nil, s1, s2, bindBin, real?_ofCplx, cplx?_ofCplx, s3, Except.map]
      · simp at ho

theorem un_sound {fr : Vec ℝ → Except String (Vec ℝ)} {fc : Vec ℂ → Except String (Vec ℂ)}
    {hr : Operand κ ℝ → Except String (Operand κ ℝ)} {hc : Operand κ ℂ → Except String (Operand κ ℂ)}
    {okr : Vec ℝ → Prop} {okc : Vec ℂ → Prop} (h1 : SoundUn fr hr okr) (h2 : SoundUn fc hc okc) :
    SoundFor (κ := κ) (bindUn fr fc) (ruleUn hr hc) (okUn okr okc) := by
  intro γs vs hd hok outs ho
  match vs, hd with
  | [], _ => simp [ruleUn] at ho
  | _ :: _ :: _, _ => simp [ruleUn] at ho
  | [v], .cons (a := γ) hv .nil =>
    simp only [ruleUn] at ho
    split at ho
    · rename_i o₁ e1
      obtain ⟨g1, d1, c1⟩ := describes_real e1 hv
      cases hh : hr o₁ with
      | error e => simp [hh, Except.map] at ho
      | ok o =>
        simp only [hh, Except.map, Except.ok.injEq] at ho
        subst ho
        have hok' : okr o₁.primal := hok.1 _ (by rw [real?_primal e1]; rfl)
        obtain ⟨r1, δ, r2, r3⟩ := h1 g1 o₁ d1 hok' o hh
        refine ⟨?_, [fun k s => Arr.ofReal (δ k s)], .cons (describes_ofReal r2) .nil, ?_⟩
        · simp only [List.map_cons, List.map_nil, real?_primal e1, primal_ofReal, bindUn, real?_ofReal, r1, Except.map]
        · intro k
          filter_upwards [c1 k, r3 k] with s s1 s3
          simp only [List.map_cons, List.map_nil, s1, bindUn, real?_ofReal, s3, Except.map]
    · split at ho
      · rename_i o₁ e1
        obtain ⟨g1, d1, c1⟩ := describes_cplx e1 hv
        cases hh : hc o₁ with
        | error e => simp [hh, Except.map] at ho
        | ok o =>
          simp only [hh, Except.map, Except.ok.injEq] at ho
          subst ho
          have hok' : okc o₁.primal := hok.2 _ (by rw [cplx?_primal e1]; rfl)
          obtain ⟨r1, δ, r2, r3⟩ := h2 g1 o₁ d1 hok' o hh
          refine ⟨?_, [fun k s => Arr.ofCplx (δ k s)], .cons (describes_ofCplx r2) .nil, ?_⟩
          · simp only [List.map_cons, List.map_nil, cplx?_primal e1, primal_ofCplx, bindUn, real?_ofCplx,
              cplx?_ofCplx, r1, Except.map]
          · intro k
            filter_upwards [c1 k, r3 k] with s s1 s3
            simp only [List.map_cons, List.map_nil, s1, bindUn, real?_ofCplx, cplx?_ofCplx, s3, Except.map]
      · simp at ho

/-! ### Elementwise binary operations -/

theorem Spec.CurveLap.of_eq {E : Type} [NormedAddCommGroup E] [NormedSpace ℝ E] {γ : κ → ℝ → E} {x x' : E} {J J' : κ → E}
    {L L' : E} (h : CurveLap γ x J L) (hx : x' = x) (hJ : ∀ k, J' k = J k) (hL : L' = L) : CurveLap γ x' J' L' := by
  rw [hx, hL, show J' = J from funext hJ]
  exact h

theorem curve_bc {𝕜 : Type} [NormedAddCommGroup 𝕜] [NormedSpace ℝ 𝕜] {n s : ℕ} {g : κ → ℝ → Fin n → 𝕜} {x : Fin n → 𝕜}
    {J : κ → Fin n → 𝕜} {L : Fin n → 𝕜} (h : CurveLap g x J L) (i : Fin s) :
    CurveLap (fun k t => bc (g k t) i) (bc x i) (fun k => bc (J k) i) (bc L i) := by
  unfold bc
  split
  · exact h.apply _
  · split
    · exact h.apply _
    · exact CurveLap.const (κ := κ) 0

/-- A description of one operand as an eventually constant or moving array of fixed size. -/
theorem operand_curve {𝕜 : Type} [NormedAddCommGroup 𝕜] [NormedSpace ℝ 𝕜] {γ : κ → ℝ → Vec 𝕜} {o : Operand κ 𝕜}
    (h : DescribesO γ o) : ∃ g : κ → ℝ → Fin o.primal.1 → 𝕜, (∀ k, ∀ᶠ s in 𝓝 (0 : ℝ), γ k s = ⟨o.primal.1, g k s⟩) ∧
      match o with
      | .plain v => g = fun _ _ => v.2
      | .tracked _ a => CurveLap g a.x a.jac a.lap := by
  cases o with
  | plain v => exact ⟨fun _ _ => v.2, h, rfl⟩
  | tracked n a => exact h

section mul
variable {𝕜 : Type} [NormedField 𝕜] [NormedAlgebra ℝ 𝕜]

theorem bsize_left {n m s : ℕ} (h : bsize n m = some s) (i : Fin s) : bc (fun _ : Fin n => (1 : 𝕜)) i = 1 := by
  unfold bc
  split
  · rfl
  · split
    · rfl
    · rename_i h1 h2
      unfold bsize at h
      have := i.isLt
      split_ifs at h <;> simp_all <;> omega

theorem bsize_right {n m s : ℕ} (h : bsize n m = some s) (i : Fin s) : bc (fun _ : Fin m => (1 : 𝕜)) i = 1 := by
  unfold bc
  split
  · rfl
  · split
    · rfl
    · rename_i h1 h2
      unfold bsize at h
      have := i.isLt
      split_ifs at h <;> simp_all <;> omega

theorem sound_of_curve {f : Vec 𝕜 → Vec 𝕜 → Except String (Vec 𝕜)} {γ₁ γ₂ : κ → ℝ → Vec 𝕜} {n m s : ℕ}
    {g₁ : κ → ℝ → Fin n → 𝕜} {g₂ : κ → ℝ → Fin m → 𝕜} (h1 : ∀ k, ∀ᶠ t in 𝓝 (0 : ℝ), γ₁ k t = ⟨n, g₁ k t⟩)
    (h2 : ∀ k, ∀ᶠ t in 𝓝 (0 : ℝ), γ₂ k t = ⟨m, g₂ k t⟩) (F : (Fin n → 𝕜) → (Fin m → 𝕜) → Fin s → 𝕜)
    (hf : ∀ u v, f ⟨n, u⟩ ⟨m, v⟩ = .ok ⟨s, F u v⟩) (a : Lap κ (Fin s → 𝕜))
    (hc : CurveLap (fun k t => F (g₁ k t) (g₂ k t)) a.x a.jac a.lap) :
    ∃ δ, DescribesO δ (.tracked s a) ∧ ∀ k, ∀ᶠ t in 𝓝 (0 : ℝ), f (γ₁ k t) (γ₂ k t) = .ok (δ k t) := by
  refine ⟨fun k t => ⟨s, F (g₁ k t) (g₂ k t)⟩, ⟨_, fun k => Eventually.of_forall fun _ => rfl, hc⟩, fun k => ?_⟩
  filter_upwards [h1 k, h2 k] with t e1 e2
  rw [e1, e2, hf]

theorem elementwise2_some (f : 𝕜 → 𝕜 → 𝕜) {n m s : ℕ} (h : bsize n m = some s) (u : Fin n → 𝕜) (v : Fin m → 𝕜) :
    elementwise2 f ⟨n, u⟩ ⟨m, v⟩ = .ok ⟨s, fun i => f (bc u i) (bc v i)⟩ := by
  simp [elementwise2, h]

theorem mulOp_sound : SoundBin (κ := κ) (𝕜 := 𝕜) (elementwise2 (· * ·)) mulOp fun _ _ => True := by
  intro γ₁ γ₂ o₁ o₂ d1 d2 _ o ho
  obtain ⟨g1, e1, c1⟩ := operand_curve d1
  obtain ⟨g2, e2, c2⟩ := operand_curve d2
  cases o₁ with
  | plain a => cases o₂ with
    | plain b =>
      simp only [mulOp, Except.map] at ho
      cases hh : elementwise2 (· * ·) a b with
      | error e => simp [hh] at ho
      | ok r =>
        simp only [hh, Except.ok.injEq] at ho
        subst ho
        refine ⟨hh, fun _ _ => r, fun k => Eventually.of_forall fun _ => rfl, fun k => ?_⟩
        filter_upwards [d1 k, d2 k] with s s1 s2
        rw [s1, s2, hh]
    | tracked m b =>
      simp only [mulOp] at ho
      split at ho
      · simp at ho
      · rename_i s hs
        simp only [Except.ok.injEq] at ho
        subst ho
        refine ⟨elementwise2_some _ hs _ _, sound_of_curve e1 e2 _ (elementwise2_some _ hs) _ ?_⟩
        refine CurveLap.pi fun i => ?_
        have h := (CurveLap.const (κ := κ) (bc a.2 i)).mul (curve_bc c2 i)
        simp only at c1
        subst c1
        refine Spec.CurveLap.of_eq h rfl (fun k => ?_) ?_
        · show bc (b.jac k) i * (bc a.2 i * bc (fun _ : Fin m => (1 : 𝕜)) i) = 0 * bc b.x i + bc a.2 i * bc (b.jac k) i
          rw [bsize_right hs]; ring
        · show bc b.lap i * (bc a.2 i * bc (fun _ : Fin m => (1 : 𝕜)) i) = 0 * bc b.x i + bc a.2 i * bc b.lap i +
            2 * ∑ k : κ, 0 * bc (b.jac k) i
          rw [bsize_right hs]; simp only [zero_mul, Finset.sum_const_zero]; ring
  | tracked n a => cases o₂ with
    | plain b =>
      simp only [mulOp] at ho
      split at ho
      · simp at ho
      · rename_i s hs
        simp only [Except.ok.injEq] at ho
        subst ho
        refine ⟨elementwise2_some _ hs _ _, sound_of_curve e1 e2 _ (elementwise2_some _ hs) _ ?_⟩
        refine CurveLap.pi fun i => ?_
        have h := (curve_bc c1 i).mul (CurveLap.const (κ := κ) (bc b.2 i))
        simp only at c2
        subst c2
        refine Spec.CurveLap.of_eq h rfl (fun k => ?_) ?_
        · show bc (a.jac k) i * (bc (fun _ : Fin n => (1 : 𝕜)) i * bc b.2 i) = bc (a.jac k) i * bc b.2 i + bc a.x i * 0
          rw [bsize_left hs]; ring
        · show bc a.lap i * (bc (fun _ : Fin n => (1 : 𝕜)) i * bc b.2 i) = bc a.lap i * bc b.2 i + bc a.x i * 0 +
            2 * ∑ k : κ, bc (a.jac k) i * 0
          rw [bsize_left hs]; simp only [mul_zero, Finset.sum_const_zero]; ring
    | tracked m b =>
      simp only [mulOp] at ho
      split at ho
      · simp at ho
      · rename_i s hs
        simp only [Except.ok.injEq] at ho
        subst ho
        refine ⟨elementwise2_some _ hs _ _, sound_of_curve e1 e2 _ (elementwise2_some _ hs) _ ?_⟩
        refine CurveLap.pi fun i => ?_
        have h := (curve_bc c1 i).mul (curve_bc c2 i)
        refine Spec.CurveLap.of_eq h rfl (fun k => ?_) ?_
        · show bc (a.jac k) i * bc b.x i + bc (b.jac k) i * bc a.x i = bc (a.jac k) i * bc b.x i + bc a.x i * bc (b.jac k) i
          ring
        · show bc a.lap i * bc b.x i + bc b.lap i * bc a.x i + 2 * ∑ k, bc (a.jac k) i * bc (b.jac k) i =
            bc a.lap i * bc b.x i + bc a.x i * bc b.lap i + 2 * ∑ k, bc (a.jac k) i * bc (b.jac k) i
          ring

theorem mul_sound : SoundFor (κ := κ) mulBind mulRule fun _ => True := by
  intro γs vs hd _ outs ho
  refine bin_sound (κ := κ) (mulOp_sound (𝕜 := ℝ)) (mulOp_sound (𝕜 := ℂ)) γs vs hd ?_ outs ho
  unfold okBin
  split <;> simp

end mul


/-! ### Division -/

section div
variable {𝕜 : Type} [RCLike 𝕜]

theorem bc_right {n m s : ℕ} (h : bsize n m = some s) (v : Fin m → 𝕜) (i : Fin s) : ∃ j, bc v i = v j := by
  unfold bc
  split
  · exact ⟨_, rfl⟩
  · split
    · exact ⟨_, rfl⟩
    · rename_i h1 h2
      unfold bsize at h
      have := i.isLt
      exfalso
      split_ifs at h <;> simp_all <;> omega

theorem deriv_inv2 (x : 𝕜) (hx : x ≠ 0) : deriv (deriv fun t : 𝕜 => t⁻¹) x = 2 / x ^ 3 := by
  have h1 : deriv (fun t : 𝕜 => t⁻¹) = fun t => -(t ^ 2)⁻¹ := by funext t; exact deriv_inv
  rw [h1]
  have h2 : HasDerivAt (fun t : 𝕜 => -(t ^ 2)⁻¹) (-(-(((2 : ℕ) : 𝕜) * x ^ (2 - 1)) / (x ^ 2) ^ 2)) x :=
    ((hasDerivAt_pow 2 x).inv (pow_ne_zero 2 hx)).neg
  rw [h2.deriv]
  field_simp
  norm_num
  ring

theorem curve_div {γ δ : κ → ℝ → 𝕜} {x y : 𝕜} {J K : κ → 𝕜} {L M : 𝕜} (h : CurveLap γ x J L) (h' : CurveLap δ y K M)
    (hy : y ≠ 0) :
    CurveLap (fun k t => γ k t / δ k t) (x / y) (fun k => 1 / y * J k + -x / y ^ 2 * K k)
      (1 / y * L + -x / y ^ 2 * M + (2 * x / y ^ 3 * (∑ k, K k * K k) - 2 / y ^ 2 * ∑ k, J k * K k)) := by
  have h2 := h.mul (h'.scomp (f := fun t => t⁻¹) (contDiffAt_inv 𝕜 hy))
  rw [deriv_inv2 y hy, deriv_inv] at h2
  have h3 : CurveLap (fun k t => γ k t / δ k t) (x * y⁻¹) _ _ := h2.congr fun k => Eventually.of_forall fun t => div_eq_mul_inv _ _
  refine Spec.CurveLap.of_eq h3 (div_eq_mul_inv x y) (fun k => ?_) ?_
  · field_simp
  · have : ∑ k, J k * (-(y ^ 2)⁻¹ * K k) = -(y ^ 2)⁻¹ * ∑ k, J k * K k := by
      rw [Finset.mul_sum]
      exact Finset.sum_congr rfl fun k _ => by ring
    rw [this]
    field_simp
    ring

theorem deriv_num (y x : 𝕜) : deriv (fun t => t / y) x = 1 / y := by
  simp [deriv_div_const]

theorem deriv_den (x y : 𝕜) : deriv (fun t => x / t) y = -x / y ^ 2 := by
  have : (fun t => x / t) = fun t : 𝕜 => x * t⁻¹ := by funext t; exact div_eq_mul_inv _ _
  rw [this, deriv_const_mul_field, deriv_inv]
  rw [neg_div, mul_neg, div_eq_mul_inv]

/-- No denominator is zero. -/
def okDiv (_ v : Vec 𝕜) : Prop := ∀ j, v.2 j ≠ 0

theorem divOp_sound : SoundBin (κ := κ) (𝕜 := 𝕜) (elementwise2 (· / ·)) (divOp false) okDiv := by
  intro γ₁ γ₂ o₁ o₂ d1 d2 hok o ho
  obtain ⟨g1, e1, c1⟩ := operand_curve d1
  obtain ⟨g2, e2, c2⟩ := operand_curve d2
  cases o₁ with
  | plain a => cases o₂ with
    | plain b =>
      simp only [divOp, Except.map] at ho
      cases hh : elementwise2 (· / ·) a b with
      | error e => simp [hh] at ho
      | ok r =>
        simp only [hh, Except.ok.injEq] at ho
        subst ho
        refine ⟨hh, fun _ _ => r, fun k => Eventually.of_forall fun _ => rfl, fun k => ?_⟩
        filter_upwards [d1 k, d2 k] with s s1 s2
        rw [s1, s2, hh]
    | tracked m b =>
      simp only [divOp] at ho
      split at ho
      · simp at ho
      · rename_i s hs
        simp only [Except.ok.injEq] at ho
        subst ho
        refine ⟨elementwise2_some _ hs _ _, sound_of_curve e1 e2 _ (elementwise2_some _ hs) _ ?_⟩
        refine CurveLap.pi fun i => ?_
        have hb : bc b.x i ≠ 0 := by
          obtain ⟨j, hj⟩ := bc_right hs b.x i
          rw [hj]; exact hok j
        have h := curve_div (CurveLap.const (κ := κ) (bc a.2 i)) (curve_bc c2 i) hb
        simp only at c1
        subst c1
        refine Spec.CurveLap.of_eq h rfl (fun k => ?_) ?_
        · show deriv (fun t => bc a.2 i / t) (bc b.x i) * bc (b.jac k) i = 1 / bc b.x i * 0 + -bc a.2 i / bc b.x i ^ 2 * bc (b.jac k) i
          rw [deriv_den]; ring
        · show deriv (fun t => bc a.2 i / t) (bc b.x i) * bc b.lap i + (if false = true then 0 else 2 * bc a.2 i / bc b.x i ^ 3 * ∑ k, bc (b.jac k) i * bc (b.jac k) i) =
            1 / bc b.x i * 0 + -bc a.2 i / bc b.x i ^ 2 * bc b.lap i + (2 * bc a.2 i / bc b.x i ^ 3 * (∑ k, bc (b.jac k) i * bc (b.jac k) i) -
              2 / bc b.x i ^ 2 * ∑ k : κ, 0 * bc (b.jac k) i)
          rw [deriv_den, if_neg (by decide)]; simp only [zero_mul, Finset.sum_const_zero]; ring
  | tracked n a => cases o₂ with
    | plain b =>
      simp only [divOp] at ho
      split at ho
      · simp at ho
      · rename_i s hs
        simp only [Except.ok.injEq] at ho
        subst ho
        refine ⟨elementwise2_some _ hs _ _, sound_of_curve e1 e2 _ (elementwise2_some _ hs) _ ?_⟩
        refine CurveLap.pi fun i => ?_
        have hb : bc b.2 i ≠ 0 := by
          obtain ⟨j, hj⟩ := bc_right hs b.2 i
          rw [hj]; exact hok j
        have h := curve_div (curve_bc c1 i) (CurveLap.const (κ := κ) (bc b.2 i)) hb
        simp only at c2
        subst c2
        refine Spec.CurveLap.of_eq h rfl (fun k => ?_) ?_
        · show deriv (fun t => t / bc b.2 i) (bc a.x i) * bc (a.jac k) i = 1 / bc b.2 i * bc (a.jac k) i + -bc a.x i / bc b.2 i ^ 2 * 0
          rw [deriv_num]; ring
        · show deriv (fun t => t / bc b.2 i) (bc a.x i) * bc a.lap i = 1 / bc b.2 i * bc a.lap i + -bc a.x i / bc b.2 i ^ 2 * 0 +
            (2 * bc a.x i / bc b.2 i ^ 3 * (∑ k : κ, (0 : 𝕜) * 0) - 2 / bc b.2 i ^ 2 * ∑ k : κ, bc (a.jac k) i * 0)
          rw [deriv_num]; simp only [mul_zero, Finset.sum_const_zero]; ring
    | tracked m b =>
      simp only [divOp] at ho
      split at ho
      · simp at ho
      · rename_i s hs
        simp only [Except.ok.injEq] at ho
        subst ho
        refine ⟨elementwise2_some _ hs _ _, sound_of_curve e1 e2 _ (elementwise2_some _ hs) _ ?_⟩
        refine CurveLap.pi fun i => ?_
        have hb : bc b.x i ≠ 0 := by
          obtain ⟨j, hj⟩ := bc_right hs b.x i
          rw [hj]; exact hok j
        have h := curve_div (curve_bc c1 i) (curve_bc c2 i) hb
        refine Spec.CurveLap.of_eq h rfl (fun k => ?_) ?_
        · show deriv (fun t => t / bc b.x i) (bc a.x i) * bc (a.jac k) i + deriv (fun t => bc a.x i / t) (bc b.x i) * bc (b.jac k) i = _
          rw [deriv_num, deriv_den]; rfl
        · show deriv (fun t => t / bc b.x i) (bc a.x i) * bc a.lap i + deriv (fun t => bc a.x i / t) (bc b.x i) * bc b.lap i + _ = _
          rw [deriv_num, deriv_den]; rfl

end div

theorem div_sound : SoundFor (κ := κ) divBind (divRule false) (okBin okDiv okDiv) :=
  bin_sound (divOp_sound (𝕜 := ℝ)) (divOp_sound (𝕜 := ℂ))

/-! ### Elementwise functions -/

theorem elementwiseOp_sound {𝕜 : Type} [RCLike 𝕜] (f d1 d2 : 𝕜 → 𝕜) (dom : 𝕜 → Prop)
    (h : ∀ x, dom x → ContDiffAt 𝕜 2 f x ∧ d1 x = deriv f x ∧ d2 x = deriv (deriv f) x) :
    SoundUn (κ := κ) (mapVec f) (elementwiseOp f d1 d2) fun v => ∀ i, dom (v.2 i) := by
  intro γ o hd hok r ho
  cases o with
  | plain v =>
    simp only [elementwiseOp, Except.ok.injEq] at ho
    subst ho
    refine ⟨rfl, fun _ _ => ⟨v.1, fun i => f (v.2 i)⟩, fun k => Eventually.of_forall fun _ => rfl, fun k => ?_⟩
    filter_upwards [hd k] with s hs
    rw [hs, mapVec]
  | tracked n a =>
    simp only [elementwiseOp, Except.ok.injEq] at ho
    subst ho
    obtain ⟨g, e, c⟩ := hd
    refine ⟨rfl, fun k s => ⟨n, fun i => f (g k s i)⟩, ⟨_, fun k => Eventually.of_forall fun _ => rfl, ?_⟩, fun k => ?_⟩
    · refine CurveLap.pi fun i => ?_
      obtain ⟨hc, h1, h2⟩ := h (a.x i) (hok i)
      have hh := (c.apply i).scomp hc
      refine Spec.CurveLap.of_eq hh rfl (fun k => ?_) ?_
      · show d1 (a.x i) * a.jac k i = _
        rw [h1]
      · show d1 (a.x i) * a.lap i + d2 (a.x i) * ∑ k, a.jac k i * a.jac k i = _
        rw [h1, h2]
    · filter_upwards [e k] with s hs
      rw [hs, mapVec]

/-- For holomorphic functions the derivatives the handler obtains are the complex derivatives. -/
theorem cplx_derivs (f : ℂ → ℂ) (z : ℂ) (hf : ContDiffAt ℂ 2 f z) : d1Cplx f z = deriv f z ∧ d2Cplx f z = deriv (deriv f) z := by
  have hdiff : ∀ w, DifferentiableAt ℂ f w → ∀ v, fderiv ℝ f w v = deriv f w * v := by
    intro w hw v
    rw [(hw.hasDerivAt.hasFDerivAt.restrictScalars ℝ).fderiv]
    simp [mul_comm]
  have hd : ∀ᶠ w in 𝓝 z, DifferentiableAt ℂ f w := (hf.eventually (by simp)).mono fun w h => h.differentiableAt (by norm_num)
  constructor
  · unfold d1Cplx jaxGrad
    rw [hdiff z hd.self_of_nhds, hdiff z hd.self_of_nhds, mul_one]
    have h1 : Complex.I * (deriv f z * Complex.I) = -deriv f z := by
      rw [mul_comm (deriv f z), ← mul_assoc, Complex.I_mul_I]; ring
    rw [h1]
    simp
  · unfold d2Cplx
    have he : (fun w => fderiv ℝ f w 1) =ᶠ[𝓝 z] deriv f := by
      filter_upwards [hd] with w hw
      rw [hdiff w hw, mul_one]
    rw [he.fderiv_eq]
    have h2 : DifferentiableAt ℂ (deriv f) z := by
      exact ((hf.fderiv_right (m := 1) (by norm_num)).differentiableAt (by norm_num)).clm_apply (differentiableAt_const (1 : ℂ))
    rw [(h2.hasDerivAt.hasFDerivAt.restrictScalars ℝ).fderiv]
    simp

/-- Where the real functions are smooth (and their JAX implementations defined). -/
def Fn.dom : Fn → ℝ → Prop
  | .log | .sqrt | .rsqrt => fun x => 0 < x
  | .integerPow k => fun x => 0 ≤ k ∨ x ≠ 0
  | .log1p => fun x => -1 < x
  | .tan => fun x => Real.cos x ≠ 0
  | .asin | .acos => fun x => -1 < x ∧ x < 1
  | _ => fun _ => True

/-- Where the complex functions are holomorphic. -/
def Fn.domC : Fn → ℂ → Prop
  | .log | .sqrt | .rsqrt => fun z => z ∈ Complex.slitPlane
  | .integerPow k => fun z => 0 ≤ k ∨ z ≠ 0
  | .log1p => fun z => 1 + z ∈ Complex.slitPlane
  | .tan => fun z => Complex.cos z ≠ 0
  | .tanh => fun z => Complex.cosh z ≠ 0
  | .logistic | .silu => fun z => 1 + Complex.exp (-z) ≠ 0
  | .exp | .sin | .cos | .expm1 | .square => fun _ => True
  | .asin | .acos | .atan | .softplus => fun _ => False

theorem zpow_contDiff {𝕜 : Type} [RCLike 𝕜] (k : ℤ) (x : 𝕜) (h : 0 ≤ k ∨ x ≠ 0) : ContDiffAt 𝕜 2 (fun y : 𝕜 => y ^ k) x := by
  rcases k with n | n
  · simpa using contDiffAt_id.pow n
  · have hx : x ≠ 0 := by
      rcases h with h | h
      · exact absurd h (by simp)
      · exact h
    simp only [zpow_negSucc]
    exact (contDiffAt_id.pow (n + 1)).inv (pow_ne_zero _ hx)

theorem logistic_contDiff (x : ℝ) : ContDiffAt ℝ 2 (fun x : ℝ => 1 / (1 + Real.exp (-x))) x :=
  contDiffAt_const.div (contDiffAt_const.add (Real.contDiff_exp.contDiffAt.comp x contDiffAt_id.neg)) (by positivity)

theorem logisticC_contDiff (z : ℂ) (h : 1 + Complex.exp (-z) ≠ 0) :
    ContDiffAt ℂ 2 (fun z : ℂ => 1 / (1 + Complex.exp (-z))) z :=
  contDiffAt_const.div (contDiffAt_const.add (Complex.contDiff_exp.contDiffAt.comp z contDiffAt_id.neg)) h

theorem cpow_contDiff (a z : ℂ) (h : z ∈ Complex.slitPlane) : ContDiffAt ℂ 2 (fun w : ℂ => w ^ a) z := by
  have h1 : ContDiffAt ℂ 2 (fun w : ℂ => Complex.exp (Complex.log w * a)) z :=
    Complex.contDiff_exp.contDiffAt.comp z ((Complex.contDiffAt_log h).mul contDiffAt_const)
  refine h1.congr_of_eventuallyEq ?_
  filter_upwards [Complex.isOpen_slitPlane.mem_nhds h] with w hw
  exact Complex.cpow_def_of_ne_zero (Complex.slitPlane_ne_zero hw) a

theorem Fn.real_smooth (f : Fn) (x : ℝ) (h : f.dom x) : ContDiffAt ℝ 2 f.real x := by
  cases f with
  | exp => exact Real.contDiff_exp.contDiffAt
  | log => exact Real.contDiffAt_log.2 (ne_of_gt h)
  | sin => exact Real.contDiff_sin.contDiffAt
  | cos => exact Real.contDiff_cos.contDiffAt
  | sqrt => exact Real.contDiffAt_sqrt (ne_of_gt h)
  | integerPow k => exact zpow_contDiff k x h
  | logistic => exact logistic_contDiff x
  | rsqrt => exact contDiffAt_const.div (Real.contDiffAt_sqrt (ne_of_gt h)) (ne_of_gt (Real.sqrt_pos.2 h))
  | log1p =>
    have h' : (1 : ℝ) + x ≠ 0 := by
      have : -1 < x := h
      linarith
    exact (Real.contDiffAt_log.2 h').comp x (contDiffAt_const.add contDiffAt_id)
  | expm1 => exact Real.contDiff_exp.contDiffAt.sub contDiffAt_const
  | tan => exact Real.contDiffAt_tan.2 h
  | asin => exact Real.contDiffAt_arcsin (ne_of_gt h.1) (ne_of_lt h.2)
  | acos => exact Real.contDiffAt_arccos (ne_of_gt h.1) (ne_of_lt h.2)
  | atan => exact Real.contDiff_arctan.contDiffAt
  | tanh =>
    have : Real.tanh = fun x => Real.sinh x / Real.cosh x := funext Real.tanh_eq_sinh_div_cosh
    show ContDiffAt ℝ 2 Real.tanh x
    rw [this]
    exact Real.contDiff_sinh.contDiffAt.div Real.contDiff_cosh.contDiffAt (ne_of_gt (Real.cosh_pos x))
  | square => exact contDiffAt_id.mul contDiffAt_id
  | softplus =>
    have h' : (1 : ℝ) + Real.exp x ≠ 0 := by positivity
    exact (Real.contDiffAt_log.2 h').comp x (contDiffAt_const.add Real.contDiff_exp.contDiffAt)
  | silu => exact contDiffAt_id.mul (logistic_contDiff x)

theorem Fn.cplx_smooth (f : Fn) (g : ℂ → ℂ) (hg : f.cplx = some g) (z : ℂ) (h : f.domC z) : ContDiffAt ℂ 2 g z := by
  cases f <;> simp only [Fn.cplx, Option.some.injEq, reduceCtorEq] at hg <;> subst hg
  case exp => exact Complex.contDiff_exp.contDiffAt
  case log => exact Complex.contDiffAt_log h
  case sin => exact Complex.contDiff_sin.contDiffAt
  case cos => exact Complex.contDiff_cos.contDiffAt
  case sqrt => exact cpow_contDiff _ z h
  case integerPow k => exact zpow_contDiff k z h
  case logistic => exact logisticC_contDiff z h
  case rsqrt => exact cpow_contDiff _ z h
  case log1p => exact (Complex.contDiffAt_log h).comp z (contDiffAt_const.add contDiffAt_id)
  case expm1 => exact Complex.contDiff_exp.contDiffAt.sub contDiffAt_const
  case tan => exact Complex.contDiffAt_tan.2 h
  case tanh =>
    have : Complex.tanh = fun x => Complex.sinh x / Complex.cosh x := rfl
    rw [this]
    exact Complex.contDiff_sinh.contDiffAt.div Complex.contDiff_cosh.contDiffAt h
  case square => exact contDiffAt_id.mul contDiffAt_id
  case silu => exact contDiffAt_id.mul (logisticC_contDiff z h)

def okFn (f : Fn) : List Arr → Prop := okUn (fun v => ∀ i, f.dom (v.2 i)) (fun v => ∀ i, f.domC (v.2 i))

theorem fn_sound (f : Fn) : SoundFor (κ := κ) (fnBind f) (fnRule f) (okFn f) := by
  refine un_sound ?_ ?_
  · exact elementwiseOp_sound (𝕜 := ℝ) f.real _ _ f.dom fun x hx => ⟨f.real_smooth x hx, rfl, rfl⟩
  · cases hg : f.cplx with
    | none =>
      simp only
      intro γ o _ _ r hr
      simp at hr
    | some g =>
      simp only
      exact elementwiseOp_sound (𝕜 := ℂ) g _ _ f.domC fun z hz =>
        ⟨f.cplx_smooth g hg z hz, (cplx_derivs g z (f.cplx_smooth g hg z hz)).1, (cplx_derivs g z (f.cplx_smooth g hg z hz)).2⟩

/-! ### dot_general -/

section dot
variable {𝕜 : Type} [NormedField 𝕜] [NormedAlgebra ℝ 𝕜]

theorem curve_dot (D : DotDims) {g₁ : κ → ℝ → Fin D.n → 𝕜} {g₂ : κ → ℝ → Fin D.m → 𝕜} {x : Fin D.n → 𝕜} {y : Fin D.m → 𝕜}
    {J : κ → Fin D.n → 𝕜} {K : κ → Fin D.m → 𝕜} {L : Fin D.n → 𝕜} {M : Fin D.m → 𝕜} (h1 : CurveLap g₁ x J L) (h2 : CurveLap g₂ y K M) :
    CurveLap (fun k t => dot D (g₁ k t) (g₂ k t)) (dot D x y) (fun k => dot D (J k) y + dot D x (K k))
      (dot D L y + dot D x M + 2 * ∑ k, dot D (J k) (K k)) := by
  refine CurveLap.pi fun o => ?_
  have h := CurveLap.sum (κ := κ) fun c => (h1.apply (D.li o c)).mul (h2.apply (D.ri o c))
  refine Spec.CurveLap.of_eq h rfl (fun k => ?_) ?_
  · show dot D (J k) y o + dot D x (K k) o = _
    simp only [dot]
    rw [Finset.sum_add_distrib]
  · have e : (2 * ∑ k, dot D (J k) (K k)) o = 2 * ∑ k, dot D (J k) (K k) o := by
      rw [Pi.mul_apply, Finset.sum_apply]; rfl
    show dot D L y o + dot D x M o + (2 * ∑ k, dot D (J k) (K k)) o = _
    rw [e]
    simp only [dot]
    rw [Finset.sum_add_distrib, Finset.sum_add_distrib, ← Finset.mul_sum, Finset.sum_comm]

theorem dotVec_fit (D : DotDims) (u : Fin D.n → 𝕜) (v : Fin D.m → 𝕜) : dotVec D ⟨D.n, u⟩ ⟨D.m, v⟩ = .ok ⟨D.out, dot D u v⟩ := by
  simp [dotVec, fit]

omit [Fintype κ] in
theorem fitLap_some {n m : ℕ} {a : Lap κ (Fin n → 𝕜)} {b : Lap κ (Fin m → 𝕜)} (h : fitLap m a = some b) : n = m ∧ HEq a b := by
  unfold fitLap at h
  split at h
  · rename_i hn
    subst hn
    simp only [Option.some.injEq] at h
    subst h
    exact ⟨rfl, HEq.rfl⟩
  · simp at h

theorem fit_some {n m : ℕ} {X : Type} {a : Fin n → X} {b : Fin m → X} (h : fit m a = some b) : n = m ∧ HEq a b := by
  unfold fit at h
  split at h
  · rename_i hn
    subst hn
    simp only [Option.some.injEq] at h
    subst h
    exact ⟨rfl, HEq.rfl⟩
  · simp at h

theorem dotOp_sound (D : DotDims) : SoundBin (κ := κ) (𝕜 := 𝕜) (dotVec D) (dotOp D) fun _ _ => True := by
  intro γ₁ γ₂ o₁ o₂ d1 d2 _ o ho
  cases o₁ with
  | plain a => cases o₂ with
    | plain b =>
      simp only [dotOp, Except.map] at ho
      cases hh : dotVec D a b with
      | error e => simp [hh] at ho
      | ok r =>
        simp only [hh, Except.ok.injEq] at ho
        subst ho
        refine ⟨hh, fun _ _ => r, fun k => Eventually.of_forall fun _ => rfl, fun k => ?_⟩
        filter_upwards [d1 k, d2 k] with s s1 s2
        rw [s1, s2, hh]
    | tracked m b =>
      obtain ⟨n, a⟩ := a
      simp only [dotOp] at ho
      split at ho
      · rename_i a' b' ha hb
        obtain ⟨rfl, ha⟩ := fit_some ha
        obtain ⟨rfl, hb⟩ := fitLap_some hb
        obtain rfl := eq_of_heq ha
        obtain rfl := eq_of_heq hb
        simp only [Except.ok.injEq] at ho
        subst ho
        obtain ⟨g, e, c⟩ := d2
        refine ⟨dotVec_fit D _ _, sound_of_curve d1 e _ (dotVec_fit D) _ ?_⟩
        refine Spec.CurveLap.of_eq (curve_dot D (CurveLap.const (κ := κ) a) c) rfl (fun k => ?_) ?_
        · funext o; simp [dot]
        · funext o; simp [dot]
      · simp at ho
  | tracked n a => cases o₂ with
    | plain b =>
      obtain ⟨m, b⟩ := b
      simp only [dotOp] at ho
      split at ho
      · rename_i a' b' ha hb
        obtain ⟨rfl, ha⟩ := fitLap_some ha
        obtain ⟨rfl, hb⟩ := fit_some hb
        obtain rfl := eq_of_heq ha
        obtain rfl := eq_of_heq hb
        simp only [Except.ok.injEq] at ho
        subst ho
        obtain ⟨g, e, c⟩ := d1
        refine ⟨dotVec_fit D _ _, sound_of_curve e d2 _ (dotVec_fit D) _ ?_⟩
        refine Spec.CurveLap.of_eq (curve_dot D c (CurveLap.const (κ := κ) b)) rfl (fun k => ?_) ?_
        · funext o; simp [dot]
        · funext o; simp [dot]
      · simp at ho
    | tracked m b =>
      simp only [dotOp] at ho
      split at ho
      · rename_i a' b' ha hb
        obtain ⟨rfl, ha⟩ := fitLap_some ha
        obtain ⟨rfl, hb⟩ := fitLap_some hb
        obtain rfl := eq_of_heq ha
        obtain rfl := eq_of_heq hb
        simp only [Except.ok.injEq] at ho
        subst ho
        obtain ⟨g, e, c⟩ := d1
        obtain ⟨g', e', c'⟩ := d2
        exact ⟨dotVec_fit D _ _, sound_of_curve e e' _ (dotVec_fit D) _ (curve_dot D c c')⟩
      · simp at ho

theorem dot_sound (D : DotDims) : SoundFor (κ := κ) (dotBind D) (dotRule D) fun _ => True := by
  intro γs vs hd _ outs ho
  refine bin_sound (κ := κ) (dotOp_sound (𝕜 := ℝ) D) (dotOp_sound (𝕜 := ℂ) D) γs vs hd ?_ outs ho
  unfold okBin
  split <;> simp

end dot

end Jaqmc.Laplacian
