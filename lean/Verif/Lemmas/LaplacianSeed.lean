import Verif.Lemmas.LaplacianComplex
import Verif.Lemmas.LaplacianScan
import Verif.Spec.LaplacianBuiltin
import Verif.Lemmas.LaplacianHess
import Verif.Model.LaplacianSeed
/-! Proof of C44: all built-in primitives, and seeded runs. -/
namespace Jaqmc.Laplacian
open Spec Filter Topology

variable {κ : Type} [Fintype κ]

theorem seedWith_primal : ∀ (ins : Inputs) (row : κ → NList (leaves ins)), (seedWith ins row).map TVal.primal = leaves ins
  | [], _ => rfl
  | (false, .num t v) :: ins, row => congrArg (Arr.num t v :: ·) (seedWith_primal ins fun k => (row k).2)
  | (false, .disc n v) :: ins, row => congrArg (Arr.disc n v :: ·) (seedWith_primal ins row)
  | (true, .disc n v) :: ins, row => congrArg (Arr.disc n v :: ·) (seedWith_primal ins row)
  | (true, .num t v) :: ins, row => congrArg (Arr.num t v :: ·) (seedWith_primal ins fun k => (row k).2)

/-- Untracked arrays do not move. -/
def rowOk : ∀ ins : Inputs, NList (leaves ins) → Prop
  | [], _ => True
  | (false, .num _ _) :: ins, y => y.1 = 0 ∧ rowOk ins y.2
  | (false, .disc _ _) :: ins, y => rowOk ins y
  | (true, .disc _ _) :: ins, y => rowOk ins y
  | (true, .num _ _) :: ins, y => rowOk ins y.2

theorem rowOk_zero : ∀ ins : Inputs, rowOk ins 0
  | [] => trivial
  | (false, .num _ _) :: ins => ⟨rfl, rowOk_zero ins⟩
  | (false, .disc _ _) :: ins => rowOk_zero ins
  | (true, .disc _ _) :: ins => rowOk_zero ins
  | (true, .num _ _) :: ins => rowOk_zero ins

theorem rowOk_dir : ∀ (ins : Inputs) (k : SIdx ins) (w : ℝ), rowOk ins (dir ins k w)
  | (false, .num _ _) :: ins, k, w => ⟨rfl, rowOk_dir ins k w⟩
  | (false, .disc _ _) :: ins, k, w => rowOk_dir ins k w
  | (true, .disc _ _) :: ins, k, w => rowOk_dir ins k w
  | (true, .num _ _) :: ins, .inl i, w => rowOk_zero ins
  | (true, .num _ _) :: ins, .inr k, w => rowOk_dir ins k w

theorem CurveLap_line {E : Type} [NormedAddCommGroup E] [NormedSpace ℝ E] (v : E) (d : κ → E) :
    CurveLap (fun k s => v + s • d k) v d 0 := ⟨fun _ => 0, fun k => Jet2.line v (d k), by simp⟩

/-- The seeded inputs describe the straight lines through the inputs. -/
theorem seedWith_lines : ∀ (ins : Inputs) (row : κ → NList (leaves ins)), (∀ k, rowOk ins (row k)) →
    ∃ γs : List (κ → ℝ → Arr), List.Forall₂ Describes γs (seedWith ins row) ∧
      ∀ k s, (γs.map fun γ => γ k s) = put (leaves ins) (pt (leaves ins) + s • row k)
  | [], _, _ => ⟨[], .nil, fun _ _ => rfl⟩
  | (false, .num t v) :: ins, row, h => by
    obtain ⟨γs, h1, h2⟩ := seedWith_lines ins (fun k => (row k).2) fun k => (h k).2
    refine ⟨(fun _ _ => .num t v) :: γs, .cons (fun k => Eventually.of_forall fun _ => rfl) h1, fun k s => ?_⟩
    have e : v + s • (row k).1 = v := (congrArg (fun d : Space t => v + s • d) (h k).1).trans (by simp)
    exact congrArg₂ List.cons (congrArg (Arr.num t) e.symm) (h2 k s)
  | (false, .disc n v) :: ins, row, h => by
    obtain ⟨γs, h1, h2⟩ := seedWith_lines ins row h
    refine ⟨(fun _ _ => .disc n v) :: γs, .cons (fun k => Eventually.of_forall fun _ => rfl) h1, fun k s => ?_⟩
    exact congrArg (Arr.disc n v :: ·) (h2 k s)
  | (true, .disc n v) :: ins, row, h => by
    obtain ⟨γs, h1, h2⟩ := seedWith_lines ins row h
    refine ⟨(fun _ _ => .disc n v) :: γs, .cons (fun k => Eventually.of_forall fun _ => rfl) h1, fun k s => ?_⟩
    exact congrArg (Arr.disc n v :: ·) (h2 k s)
  | (true, .num t v) :: ins, row, h => by
    obtain ⟨γs, h1, h2⟩ := seedWith_lines ins (fun k => (row k).2) h
    refine ⟨(fun k s => .num t (v + s • (row k).1)) :: γs,
      .cons ⟨_, fun k => Eventually.of_forall fun _ => rfl, CurveLap_line (E := Space t) v fun k => (row k).1⟩ h1, fun k s => ?_⟩
    exact congrArg (Arr.num t (v + s • (row k).1) :: ·) (h2 k s)

/-! ### All primitives -/



theorem put_disc : ∀ (as : List Arr) (_ : AllDisc as) (y : NList as), put as y = as
  | [], _, _ => rfl
  | .num t v :: as, h, _ => by obtain ⟨n, w, h⟩ := h _ List.mem_cons_self; cases h
  | .disc n v :: as, h, y => congrArg (Arr.disc n v :: ·) (put_disc as (fun a ha => h a (List.mem_cons_of_mem _ ha)) y)

theorem linear_sound' (bind : List Arr → Except String (List Arr)) :
    SoundFor (κ := κ) bind (wrapLinear bind) fun as => AllDisc as ∨ AffineAt bind as := by
  intro γs vs hd hok outs ho
  refine linear_sound bind γs vs hd ?_ outs ho
  rcases hok with hok | hok
  · unfold wrapLinear at ho
    split at ho
    · cases ho
    · rename_i t v hb
      exact ⟨t, 0, v, Eventually.of_forall fun y => by rw [put_disc _ hok, hb]; simp⟩
    · cases ho
  · exact hok

theorem general_sound' (bind : List Arr → Except String (List Arr)) :
    SoundFor (κ := κ) bind (wrapGeneral bind) fun as => AllDisc as ∨ SmoothAt bind as := by
  intro γs vs hd hok outs ho
  refine general_sound bind γs vs hd ?_ outs ho
  rcases hok with hok | hok
  · unfold wrapGeneral at ho
    split at ho
    · cases ho
    · rename_i t v hb
      refine ⟨t, fun _ => v, contDiffAt_const, Eventually.of_forall fun y => by rw [put_disc _ hok, hb], fun _ => .inl ?_⟩
      intro a ha
      obtain ⟨n, w, rfl⟩ := hok a ha
      rfl
    · cases ho
  · exact hok

theorem builtin_sound {pr : Prim κ} (h : Builtin pr) : SoundFor pr.bind pr.rule pr.ok := by
  induction h with
  | linear bind => exact linear_sound' bind
  | lin lay => exact lin_sound lay
  | general bind => exact general_sound' bind
  | barrier bind => exact barrier_sound bind
  | add => exact add_sound
  | mul => exact mul_sound
  | div => exact div_sound
  | fn f => exact fn_sound f
  | dot D => exact dot_sound D
  | conj => exact conj_sound
  | real => exact real_sound
  | imag => exact imag_sound
  | complex => exact complex_sound
  | toCplx => exact toCplx_sound
  | toReal => exact toReal_sound
  | abs => exact abs_sound
  | slogdet b n => exact slogdet_sound b n
  | pjit p _ hlim ih => exact prog_sound p hlim ih
  | «while» cond body _ hc hb ncc nbc fuel ih => exact while_sound cond body hc (prog_sound body hb ih) ncc nbc fuel
  | scan body _ hb nconst nc L reverse ih => exact scan_sound body (prog_sound body hb ih) nconst nc L reverse

end Jaqmc.Laplacian
