import Verif.Lemmas.LaplacianLin
import Verif.Lemmas.LaplacianLoop
/-! Proof of C44 for the primitive `complex`. -/
namespace Jaqmc.Laplacian
open Spec Filter Topology

variable {κ : Type} [Fintype κ]

theorem bc_self {𝕜 : Type} [Zero 𝕜] {n : ℕ} (v : Fin n → 𝕜) (i : Fin n) : bc v i = v i := by
  unfold bc
  split
  · rename_i h; congr 1; ext; simp; omega
  · simp

theorem bc_one {𝕜 : Type} [Zero 𝕜] {n : ℕ} (c : 𝕜) (i : Fin n) : bc (fun _ : Fin 1 => c) i = c := by simp [bc]

theorem bsize_one (n : ℕ) : bsize n 1 = some n := by unfold bsize; split_ifs <;> simp_all

theorem bsize_self (n : ℕ) : bsize n n = some n := by unfold bsize; simp

/-- `real + 1j * imag` is `complex(real, imag)`. -/
theorem complex_chain {p q p' q' q'' z w : Arr} (h1 : toCplxBind [p] = .ok [p']) (h2 : toCplxBind [q] = .ok [q'])
    (h3 : mulBind [q', oneJ] = .ok [q'']) (h4 : addBind [p', q''] = .ok [z]) (h5 : complexBind [p, q] = .ok [w]) : z = w := by
  match p, q, h5 with
  | .num (.real n) u, .num (.real m) v, h5 =>
    simp only [complexBind] at h5
    split at h5
    · rename_i hmn
      subst hmn
      cases h5
      cases h1
      cases h2
      simp only [mulBind, oneJ, bindBin, Arr.real?, Arr.cplx?, elementwise2, bsize_one, Except.map] at h3
      cases h3
      simp only [addBind, bindBin, Arr.ofCplx, Arr.real?, Arr.cplx?, elementwise2, bsize_self, Except.map] at h4
      cases h4
      refine congrArg (Arr.num (.cplx m)) (funext fun i : Fin m => ?_)
      show bc _ i + bc _ i = _
      rw [bc_self (n := m), bc_self (n := m)]
      show ((u i : ℝ) : ℂ) + bc (fun i : Fin m => ((v i : ℝ) : ℂ)) i * bc (fun _ : Fin 1 => Complex.I) i = _
      rw [bc_self, bc_one]
      exact (Complex.mk_eq_add_mul_I _ _).symm
    · cases h5

/-- Types are constant along curves. -/
theorem describes_type {γ : κ → ℝ → Arr} {v : TVal κ} (h : Describes γ v) {t : Ty} {u : Space t} (hp : v.primal = .num t u) (k : κ) :
    ∀ᶠ s in 𝓝 (0 : ℝ), ∃ u', γ k s = .num t u' := by
  cases v with
  | plain a =>
    have hp' : a = .num t u := hp
    subst hp'
    exact (h k).mono fun s hs => ⟨u, hs⟩
  | tracked t' a =>
    obtain ⟨g, h1, -⟩ := h
    cases hp
    exact (h1 k).mono fun s hs => ⟨_, hs⟩

theorem complexBind_types {p q w : Arr} (h : complexBind [p, q] = .ok [w]) :
    ∃ n, ∃ u v : Space (.real n), p = .num (.real n) u ∧ q = .num (.real n) v := by
  match p, q, h with
  | .num (.real n) u, .num (.real m) v, h =>
    simp only [complexBind] at h
    split at h
    · rename_i hmn; subst hmn; exact ⟨m, u, v, rfl, rfl⟩
    · cases h

theorem complexBind_some (n : ℕ) (u v : Space (.real n)) : ∃ w, complexBind [.num (.real n) u, .num (.real n) v] = .ok [w] := by
  simp [complexBind]

/-- One result of a sound handler, on one or two arguments. -/
theorem sound_single {f : List Arr → Except String (List Arr)} {r : List (TVal κ) → Except String (List (TVal κ))}
    (h : SoundFor f r fun _ => True) {γs : List (κ → ℝ → Arr)} {vs : List (TVal κ)} (hd : List.Forall₂ Describes γs vs)
    {o : TVal κ} (ho : r vs = .ok [o]) : f (vs.map TVal.primal) = .ok [o.primal] ∧ ∃ δ : κ → ℝ → Arr, Describes δ o ∧
      ∀ k, ∀ᶠ s in 𝓝 (0 : ℝ), f (γs.map fun γ => γ k s) = .ok [δ k s] := by
  obtain ⟨h1, δs, h2, h3⟩ := h γs vs hd trivial _ ho
  match δs, h2 with
  | [δ], .cons h2 .nil => exact ⟨h1, δ, h2, h3⟩

theorem complex_sound : SoundFor (κ := κ) complexBind complexRule fun _ => True := by
  intro γs vs hd _ outs ho
  match γs, vs, hd with
  | _, [], _ => cases ho
  | _, [_], _ => cases ho
  | _, _ :: _ :: _ :: _, _ => cases ho
  | [γ, δ], [p, q], .cons hp (.cons hq .nil) =>
    simp only [complexRule, Bind.bind, Except.bind] at ho
    cases h1 : toCplxRule [p] with
    | error e => simp only [h1] at ho; cases ho
    | ok rc =>
    cases h2 : toCplxRule [q] with
    | error e => simp only [h1, h2] at ho; cases ho
    | ok ic =>
    simp only [h1, h2] at ho
    match ic, ho, h2 with
    | [], ho, _ => cases ho
    | _ :: _ :: _, ho, _ => cases ho
    | [q'], ho, h2 =>
    simp only at ho
    cases h3 : mulRule [q', .plain oneJ] with
    | error e => simp only [h3] at ho; cases ho
    | ok sc =>
    simp only [h3] at ho
    match rc, sc, ho, h1, h3 with
    | [], _, ho, _, _ => cases ho
    | _ :: _ :: _, _, ho, _, _ => cases ho
    | [_], [], ho, _, _ => cases ho
    | [_], _ :: _ :: _, ho, _, _ => cases ho
    | [p'], [q''], ho, h1, h3 =>
    simp only at ho
    cases h4 : addRule [p', q''] with
    | error e => simp only [h4] at ho; cases ho
    | ok res =>
    cases h5 : complexBind [p.primal, q.primal] with
    | error e => simp only [h4, h5] at ho; cases ho
    | ok val =>
    simp only [h4, h5] at ho
    match res, val, ho, h4, h5 with
    | [.tracked t a], [.num t' v], ho, h4, h5 =>
      simp only at ho
      obtain ⟨b1, δ1, d1, e1⟩ := sound_single toCplx_sound (.cons hp .nil) h1
      obtain ⟨b2, δ2, d2, e2⟩ := sound_single toCplx_sound (.cons hq .nil) h2
      have hJ : Describes (κ := κ) (fun _ _ => oneJ) (.plain oneJ) := fun _ => Eventually.of_forall fun _ => rfl
      obtain ⟨b3, δ3, d3, e3⟩ := sound_single mul_sound (.cons d2 (.cons hJ .nil)) h3
      obtain ⟨b4, δ4, d4, e4⟩ := sound_single add_sound (.cons d1 (.cons d3 .nil)) h4
      have hx := complex_chain b1 b2 b3 b4 h5
      have hx' : Arr.num t a.x = Arr.num t' v := hx
      cases hx'
      rw [dif_pos rfl] at ho
      cases ho
      refine ⟨h5, [δ4], .cons d4 .nil, fun k => ?_⟩
      obtain ⟨n, u1, u2, t1, t2⟩ := complexBind_types h5
      filter_upwards [e1 k, e2 k, e3 k, e4 k, describes_type hp t1 k, describes_type hq t2 k] with s s1 s2 s3 s4 s5 s6
      obtain ⟨w1, s5⟩ := s5
      obtain ⟨w2, s6⟩ := s6
      simp only [List.map_cons, List.map_nil, s5, s6] at s1 s2 s3 s4 ⊢
      obtain ⟨w, hw⟩ := complexBind_some n w1 w2
      have := complex_chain s1 s2 s3 s4 hw
      rw [hw, this]
    | [], _, ho, _, _ => cases ho
    | _ :: _ :: _, _, ho, _, _ => simp at ho
    | [.plain _], _, ho, _, _ => cases ho
    | [.tracked _ _], [], ho, _, _ => cases ho
    | [.tracked _ _], _ :: _ :: _, ho, _, _ => simp at ho
    | [.tracked _ _], [.disc _ _], ho, _, _ => cases ho

end Jaqmc.Laplacian
