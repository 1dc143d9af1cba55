import Mathlib.Analysis.InnerProductSpace.PiL2
import Mathlib.Analysis.SpecialFunctions.Gaussian.GaussianIntegral
import Mathlib.Analysis.SpecialFunctions.Trigonometric.Inverse
import Mathlib.Data.Fin.Tuple.Sort
import Mathlib.Data.Sign.Basic
/-!
# Drift, diffusion and acceptance of the legacy DMC

`/repo/src/jaqmc_legacy/dmc/position_update.py` and the two walker moves of `dmc.py`.
Real numbers stand for floats; random draws are inputs.  Where the code divides zero by zero
(velocity zero, velocity exactly radial, electron exactly on a nucleus) it gets NaN, here the
quotient is `0`; theorems that need it exclude these points.
-/
namespace Jaqmc.DmcMove
open scoped Classical

/-- A point in space. -/
abbrev V := EuclideanSpace ℝ (Fin 3)

/-- `nearest_index` of `to_nearest_nucleus` (position_update.py:303-309): the first nucleus at the
smallest distance (`jnp.argmin`). -/
noncomputable def nearest {M : ℕ} (nuclei : Fin (M + 1) → V) (x : V) : Fin (M + 1) :=
  Tuple.sort (fun i => ‖x - nuclei i‖) 0

/-- `unit_vec_to_nearest_nucleus` (position_update.py:237-239, 313-315). -/
noncomputable def unitTo (nucleus x : V) : V := (‖x - nucleus‖)⁻¹ • (x - nucleus)

/-- `calc_per_electron_weight_control_helper` (position_update.py:311-317). -/
noncomputable def weightControl (v x nucleus : V) (charge : ℝ) : ℝ :=
  0.5 * (1 + inner ℝ ((‖v‖)⁻¹ • v) (unitTo nucleus x))
    + 0.1 / (4 / (charge * ‖x - nucleus‖) ^ 2 + 1)

/-- The clip factor (position_update.py:321-337). -/
noncomputable def clipFactor (value : ℝ) : ℝ :=
  if value < 2e-4 then 1 else (-1 + Real.sqrt (1 + 2 * value)) / value

/-- `clip_velocity_helper` (position_update.py:319-338). -/
noncomputable def clipVelocity (v x nucleus : V) (charge tau : ℝ) : V :=
  clipFactor (weightControl v x nucleus charge * ‖v‖ ^ 2 * tau) • v

/-- `do_drift` (position_update.py:236-249). -/
noncomputable def drift (x nucleus vc : V) (tau : ℝ) : V :=
  let dist := ‖x - nucleus‖
  let e := unitTo nucleus x
  let vz := inner ℝ vc e
  let vrhoVec := vc - vz • e
  let vrho := ‖vrhoVec‖
  let z := max (dist + vz * tau) 0
  let rho := 2 * vrho * tau * z / (dist + z)
  nucleus + z • e + rho • ((vrho)⁻¹ • vrhoVec)

/-- The complementary error function (`jax.lax.erfc`). -/
noncomputable def erfc (a : ℝ) : ℝ :=
  2 / Real.sqrt Real.pi * ∫ t in Set.Ioi a, Real.exp (-1 * t ^ 2)

/-- `calc_nucleus_overshoot_prob_helper` (position_update.py:279-285). -/
noncomputable def overshootProb (x nucleus vc : V) (tau : ℝ) : ℝ :=
  0.5 * erfc ((‖x - nucleus‖ + inner ℝ vc (unitTo nucleus x) * tau) / Real.sqrt (2 * tau))

/-- `g1` of `calc_G_log` (position_update.py:289-291). -/
noncomputable def g1 (tau : ℝ) (xi : V) : ℝ :=
  Real.exp (-1.5 * Real.log (2 * Real.pi * tau) - 0.5 * ‖xi‖ ^ 2 / tau)

/-- `g2` of `calc_G_log` (position_update.py:292-294). -/
noncomputable def g2 (zeta : ℝ) (xi : V) : ℝ :=
  Real.exp (3 * Real.log zeta - 2 * zeta * ‖xi‖) / Real.pi

/-- `G` of `calc_G_log` (position_update.py:287-301). -/
noncomputable def calcG (updated nucleus drifted : V) (q zeta tau : ℝ) : ℝ :=
  (1 - q) * g1 tau (updated - drifted) + (1 - (1 - q)) * g2 zeta (updated - nucleus)

/-- `sample_gamma` (position_update.py:268-277): `g` is the gamma draw, `phi` uniform on
`(0, 2π)`, `t` uniform on `(0, 1)`. -/
noncomputable def sampleGamma (zeta g phi t : ℝ) : V :=
  let norm := g * 0.5 / zeta
  let theta := Real.arccos (1 - 2 * t)
  !₂[norm * Real.cos phi * Real.sin theta, norm * Real.sin phi * Real.sin theta,
    norm * Real.cos theta]

/-- `do_diffusion` (position_update.py:251-266): `u` the uniform draw, `xi` the normal draw. -/
noncomputable def diffuse (drifted nucleus : V) (q tau zeta : ℝ) (u : ℝ) (xi : V) (g phi t : ℝ) : V :=
  if u < 1 - q then drifted + Real.sqrt tau • xi else nucleus + sampleGamma zeta g phi t

/-- The molecule and the time step. -/
structure Sys (M : ℕ) where
  nuclei : Fin (M + 1) → V
  charges : Fin (M + 1) → ℝ
  tau : ℝ

/-- What `single_electron_wrapper` (position_update.py:11-51) derives from an electron's position
and velocity: nucleus, `laplace_zeta`, drifted position, overshoot probability. -/
structure Prep where
  nucleus : V
  zeta : ℝ
  drifted : V
  q : ℝ

/-- position_update.py:13-33. -/
noncomputable def prep {M : ℕ} (S : Sys M) (x v : V) : Prep :=
  let i := nearest S.nuclei x
  let vc := clipVelocity v x (S.nuclei i) (S.charges i) S.tau
  ⟨S.nuclei i, Real.sqrt (S.charges i ^ 2 + 1 / S.tau), drift x (S.nuclei i) vc S.tau,
    overshootProb x (S.nuclei i) vc S.tau⟩

/-- The draws for one electron. -/
structure Draw where
  u : ℝ
  xi : V
  g : ℝ
  phi : ℝ
  t : ℝ

/-- The proposed position (position_update.py:34-41). -/
noncomputable def propose {M : ℕ} (S : Sys M) (x v : V) (d : Draw) : V :=
  diffuse (prep S x v).drifted (prep S x v).nucleus (prep S x v).q S.tau (prep S x v).zeta
    d.u d.xi d.g d.phi d.t

/-- `G_log` from `x` to `y` (position_update.py:44-50). -/
noncomputable def gLog {M : ℕ} (S : Sys M) (x v y : V) : ℝ :=
  Real.log (calcG y (prep S x v).nucleus (prep S x v).drifted (prep S x v).q (prep S x v).zeta S.tau)

/-- A configuration of `n` electrons. -/
abbrev Conf (n : ℕ) := Fin n → V

/-- `jnp.sum(G_log)` over the electrons (position_update.py:68, 95). -/
noncomputable def sumGLog {M n : ℕ} (S : Sys M) (vel : Conf n → Conf n) (x y : Conf n) : ℝ :=
  ∑ i, gLog S (x i) (vel x i) (y i)

/-- `jnp.clip(jnp.exp(2 * (log|ψ'| - log|ψ|) + rest), 0, 1)`, with `log 0 = -inf`: a vanishing
new value gives `0`, a vanishing old value (only) gives `1`; for both the code has NaN, which no
draw is below, so `0`. -/
noncomputable def clippedRatio (psi psi' rest : ℝ) : ℝ :=
  if psi' = 0 then 0
  else if psi = 0 then 1
  else min (max (Real.exp (2 * (Real.log |psi'| - Real.log |psi|) + rest)) 0) 1

/-- `acceptance_rate` of the walker move (dmc.py:641-652); `psi` is the (real) wave function
whose sign and logarithm `vmc_wave_func_with_sign` returns. -/
noncomputable def acceptRate {M n : ℕ} (S : Sys M) (psi : Conf n → ℝ) (vel : Conf n → Conf n)
    (age : ℝ) (x y : Conf n) : ℝ :=
  if (SignType.sign (psi x) : ℝ) * (SignType.sign (psi y) : ℝ) < 0 then 0
  else clippedRatio (psi x) (psi y)
    (sumGLog S vel y x - sumGLog S vel x y + Real.log 1.1 * max (age - 50) 0)

/-- The move of one walker (dmc.py:620-677): position and age. -/
noncomputable def walkerMove {M n : ℕ} (S : Sys M) (psi : Conf n → ℝ) (vel : Conf n → Conf n)
    (s : Conf n × ℝ) (d : (Fin n → Draw) × ℝ) : Conf n × ℝ :=
  let y := fun i => propose S (s.1 i) (vel s.1 i) (d.1 i)
  if d.2 < acceptRate S psi vel s.2 s.1 y then (y, 1) else (s.1, s.2 + 1)

/-- `p_accept_elec` of the electron-by-electron move (position_update.py:154-163). -/
noncomputable def acceptElec {M n : ℕ} (S : Sys M) (psi : Conf n → ℝ) (vel : Conf n → Conf n)
    (i : Fin n) (x y : Conf n) : ℝ :=
  clippedRatio (psi x) (psi y) (gLog S (y i) (vel y i) (x i) - gLog S (x i) (vel x i) (y i))
    * if 0 < (SignType.sign (psi x) : ℝ) * (SignType.sign (psi y) : ℝ) then 1 else 0

/-- The accumulators of the `fori_loop` of `from_orig_config_wrapper_ebye`
(position_update.py:115-179).  The velocity carried along is always `vel` of the position
(position_update.py:139, 169-170). -/
structure Sweep (n : ℕ) where
  pos : Conf n
  sumP : ℝ
  sumPR : ℝ
  sumR : ℝ

/-- `delta_R_vec` (position_update.py:259-266). -/
noncomputable def deltaR (q tau zeta : ℝ) (d : Draw) : V :=
  if d.u < 1 - q then Real.sqrt tau • d.xi else sampleGamma zeta d.g d.phi d.t

/-- One electron of the sweep (position_update.py:115-179). -/
noncomputable def elecMove {M n : ℕ} (S : Sys M) (psi : Conf n → ℝ) (vel : Conf n → Conf n)
    (d : Fin n → Draw × ℝ) (s : Sweep n) (i : Fin n) : Sweep n :=
  let x := s.pos
  let P := prep S (x i) (vel x i)
  let y := Function.update x i (propose S (x i) (vel x i) (d i).1)
  let r2 := ‖deltaR P.q S.tau P.zeta (d i).1‖ ^ 2
  let p := acceptElec S psi vel i x y
  ⟨if (d i).2 < p then y else x, s.sumP + p, s.sumPR + p * r2, s.sumR + r2⟩

/-- The sweep over all electrons (position_update.py:199-216). -/
noncomputable def sweep {M n : ℕ} (S : Sys M) (psi : Conf n → ℝ) (vel : Conf n → Conf n)
    (x : Conf n) (d : Fin n → Draw × ℝ) : Sweep n :=
  (List.finRange n).foldl (elecMove S psi vel d) ⟨x, 0, 0, 0⟩

/-- `mean_p` and `effective_time_step` (position_update.py:225-226). -/
noncomputable def meanP {n : ℕ} (s : Sweep n) : ℝ := s.sumP / n

/-- `effective_time_step` (position_update.py:226). -/
noncomputable def effStep {n : ℕ} (tau : ℝ) (s : Sweep n) : ℝ := tau * s.sumPR / s.sumR

end Jaqmc.DmcMove
