import Verif.Model.Geometry
/-!
`sphere_proposal` of `src/jaqmc/geometry/sphere.py` as the move of one walker (C136): one electron, and all the electrons of a walker.
-/
namespace Jaqmc.Geometry

/-- The new angles of one electron, sphere.py:12-56: `z` holds the normal draw and the uniform one.  A move onto a pole gives NaN in the code; the value
`(0, 0)` chosen here instead does not matter, because such draws have probability zero (`c136_defined`). -/
noncomputable def sphereStep (stddev : ℝ) (z q : ℝ × ℝ) : ℝ × ℝ := (sphereMove q.1 q.2 stddev z.1 z.2).getD (0, 0)

/-- `sphere_proposal` for one walker with `m` electrons, sphere.py:12-72: the arrays of draws have one entry for each electron. -/
noncomputable def sphereMoveAll {m : Nat} (stddev : ℝ) (z x : Fin m → ℝ × ℝ) : Fin m → ℝ × ℝ := fun i => sphereStep stddev (z i) (x i)

/-- The proposal of `make_pbc_gaussian_proposal` for one walker with `m` electrons, pbc.py:187-203. -/
noncomputable def pbcMoveAll {m d : Nat} (L : Matrix (Fin d) (Fin d) ℝ) (stddev : ℝ) (z x : Fin m → Vec d) : Fin m → Vec d :=
  fun i => pbcProposal L stddev (z i) (x i)

end Jaqmc.Geometry
