# A Lean 4 model of bytedance/jaqmc

## Layout

* `lean/Verif/Model/*.lean`  – the model: small total functions transcribing the Python, each with a comment
  citing file and lines in `/repo` and every simplification.
* `lean/Verif/Spec/*.lean`   – short specifications that do not use the model's helpers.
* `lean/Verif/Lemmas/*.lean` – helper lemmas.
* `lean/Verif/Props/*.lean`  – the property theorems and, beside each, examples meeting their hypotheses.

`properties.jsonl` lists the properties, `MANIFEST.json` maps them to theorems, `seeded/LOG.jsonl` records
the wrong programs the theorems were tested against.

## Trusted base

**Kernel and axioms.** Lean 4.33.0's kernel and, at most, the three standard axioms `propext`,
`Classical.choice`, `Quot.sound` (every theorem in `MANIFEST.json` depends on a subset of these; the theorems
over ℝ and ℂ use all three). No axiom is added, no proof is left open, no compiled decision procedure is used.

**Transcription.** Nothing links the Python text to the model mechanically. Every definition of the model cites
the lines it transcribes and says what it leaves out; `seeded/LOG.jsonl` records several hundred wrong versions
of the model the theorems were run against.

**What the model assumes about the platform.**

* Numbers. Floating point is replaced by exact fields (ℚ, ℝ, ℂ or an abstract ring). Rounding and overflow are
  outside the model; NaN and infinities are modelled where a property is about them (C10, C18, C22, C25, C63).
  C20's compensated sum is modelled over an exact field, with a rounding model only in `Stats`' Kahan lemmas.
* Python. `sorted`, string comparison, `str.split`/`partition`, dict insertion order, `pathlib` globbing and the
  exception classes that are caught are transcribed from the Python documentation.
* Files. A kill can happen between two system calls; a text write may be cut at any character; `os.replace` is
  atomic; a checkpoint may be left torn, unreadable or empty. HDF5: a kill loses rows not flushed.
* NumPy/JAX. `numpy`/`jnp` array functions are what their documentation says, on lists, `Fin n → α` or shaped
  arrays. `vmap` is pointwise application, `pmean` the mean over devices, `jit` the identity. JAX's `grad`, `jvp`
  and `jacfwd` are Mathlib's `fderiv`. Random generators are arbitrary functions of the key (C25) or ideal
  uniform variables (C26); keys are free terms (C51, C55).
* flax layers are arbitrary functions of their inputs wherever a wavefunction property is claimed for all
  parameters (C62–C67).

## What is modelled and what is not

| code in `/repo/src/jaqmc` | model |
|---|---|
| `utils/checkpoint.py` | `Model/Checkpoint` (names, scan, save with replace, npz trees) |
| `writer/{base,csv,hdf5,console}.py` | `Model/Writers`, `Model/Misc` (console spec) |
| `workflow/base.py`, `workflow/stage/{base,vmc,sampling,evaluation}.py`, `workflow/{vmc,evaluation}.py` | `Model/RunLoop`, `Model/Digest`, `Model/Misc` (config backup) |
| `utils/config.py`, `utils/wiring.py`, `utils/module_resolver.py` | `Model/Config`, `Model/Misc` |
| `data.py`, `utils/chunked_vmap.py`, `utils/array.py` | `Model/Data`, `Model/Misc` |
| `estimator/{base,histogram,total_energy,loss_grad}.py`, `utils/clip.py` | `Model/Stats`, `Model/LossGrad` |
| `sampler/{base,mcmc}.py` | `Model/Sampler` |
| `geometry/{pbc,obc,sphere}.py`, `utils/supercell.py`, `estimator/ewald.py` | `Model/Geometry`, `Model/Supercell`, `Model/Ewald` |
| `utils/atomic/{initialization,atomic_system,atom}.py` | `Model/Spins` |
| `optimizer/schedule.py` | `Model/Schedule` |
| `laplacian/**` (interpreter, seeds, all primitives, sparse encoding, custom rules, loops) | `Model/Interp`, `Model/Laplacian*`, `Model/Sparse*` |
| `wavefunction/**`, `app/molecule/wavefunction`, `app/solid/wavefunction.py` | `Model/Wavefunction` |
| `app/hall/wavefunction/*` | `Model/Hall` |
| `estimator/kinetic/*`, `utils/func_transform.py` | `Model/Kinetic` |
| `estimator/ecp/*` | `Model/Ecp` |
| `estimator/spin.py` | `Model/SpinSquared` |
| `optimizer/sr/*` | `Model/SR` |
| `jaqmc_legacy/dmc/{ckpt_metric_manager,metric_manager,ckpt_handler,storage_handler,data_path}.py`, loop of `dmc.py` | `Model/DmcData` (local storage) |
| `jaqmc_legacy/dmc/{branch,branch_fix_size}.py` | `Model/DmcBranch` |
| `jaqmc_legacy/dmc/{energy_estimator,effective_time_step_calculator}.py`, weights, outliers and padding of `dmc.py` | `Model/DmcEnergy` |
| `jaqmc_legacy/dmc/position_update.py`, walker moves of `dmc.py` | `Model/DmcMove` |
| `estimator/ph/*` (without the XML parser) | `Model/Ph` |
| `estimator/density/*` | `Model/Density` |
| `app/hall/estimator/{pair_correlation,one_rdm}.py` | `Model/HallStats` |
| `app/hall/hamiltonian.py`, `app/hall/estimator/penalized_loss.py`, energy estimators of `app/hall/workflow.py` | `Model/HallEnergy` |
| `utils/atomic/{scf,pretrain}.py`, `PBCAtomicOrbitalEvaluator.__call__` of `utils/atomic/gto.py` | `Model/Scf` |
| `utils/atomic/gto.py` (`cart2sph`, `solid_harmonic`, `AtomicOrbitalEvaluator`) | `Model/Gto` |
| `jaqmc_legacy/loss/{utils,vmc,spin_penalty,overlap_penalty,factory}.py` | `Model/LegacyLoss` |
| `app/molecule/{hamiltonian,workflow}.py`, `config/base.py`, `utils/atomic/{atom,atomic_system,pp}.py` (energies and atoms) | `Model/MolEnergy` |
| `app/hydrogen_atom.py` (wavefunction, potential, estimators, data_init) | `Model/Hydrogen` |
| `app/solid/config/{base,rock_salt,two_atom_chain}.py`, `app/molecule/config/{diatomic,alkane}.py` (geometry) | `Model/Presets` |
| `app/solid/{hamiltonian,workflow,data}.py`, `config/base.py` (energies, atoms, electrons, k-points) | `Model/SolidEnergy` |
| `jaqmc_legacy/pp/{hamiltonian,ecp_potential,special,quadrature}.py`, `pp/ph/{hamiltonian,data}.py` | `Model/LegacyPp` |
| `optimizer/kfac/{curvature_blocks,complex_support,kfac,tag_registration}.py` | `Model/Kfac` (moving average, preconditioner and norm constraint of kfac_jax by their documentation) |
| `wavefunction/backbone/lapnet/_attention.py` | `Model/Attention` |
| `laplacian/{custom_rules,tracing}.py`, `laplacian/primitives/custom_laplacian.py` | `Model/CustomLap` (`jax.vmap` by its documentation) |
| `optimizer/sr/jasr.py:841-960` | `Model/Prune` (program semantics by the documentation of jaxprs) |
| `optimizer/sr/jasr.py:352-519` with `prune_inactive=True`, `get_idx`, `set_idx` | `Model/PruneSR` |
| `utils/config.py:470-674` (what is recorded), `workflow/base.py:154-180` | `Model/Replay` (YAML lossless, classes arbitrary lawful conversions) |
| `utils/config.py:36-202` (`configurable_dataclass`, `module_config`) | `Model/ConfigClass` (pyserde by its documentation) |
| `utils/config.py:659-674,726-758`, `optimizer/optax.py:25-90` | `Model/Callable` (calls by the Python language reference) |
| keys: `workflow/vmc.py:101-126`, `workflow/evaluation.py:79-117`, `stage/base.py:140-170`, `stage/sampling.py:218-301`, `stage/vmc.py:197-313`, `sampler/*`, `estimator/base.py:250-360`, initialisers | `Model/Keys` (keys are derivation paths; only who draws with which key) |
| `workflow/vmc.py:20-37,103-125`, `workflow/evaluation.py:86-114`, `stage/sampling.py:218-245` (handover) | `Model/Handover` with the sampler of `Model/Sampler` started from any state |
| `stage/vmc.py:227-317`, `stage/evaluation.py:178-200,252-265`, `stage/sampling.py:246-301` | `Model/TrainStep` (components arbitrary functions; compilation, sharding, donation not modelled) |
| `jaqmc_legacy/pp/utils/init_electrons.py:13-79` (the package's own copy imports a module `system` that does not exist there; `legacy_examples/pp/lapnet/run.py:242-312` is the same text) | `Model/LegacyInit` (random streams arbitrary, coordinates in any ring) |
| `dmc/dmc.py:28-349,351-545`, `dmc/state.py` | `Model/DmcRun` (walker move and keys arbitrary; recovery and files in `DmcData`) |
| `utils/yaml_format.py:83-140` | `Model/Annotate` (lines of characters) |
| `writer/console.py:73-125`, `utils/time_tracker.py` | `Model/LogRun` |
| `stage/sampling.py:32-60, 200-246`, `stage/base.py:143-157`, `workflow/base.py:188-228`, `parallel_jax.py` (sharding, gathering), `histogram.py` (rows per device) | `Model/Sharded` |
| `optimizer/sr/jasr.py:322, 389-398, 996-1038` with `loss_grad.py` and `Model/SR` | `Model/ImagTime` |
| `sampler/mcmc.py`, `sampler/base.py:131-183`, `estimator/base.py:27-53, 172-193` as a random experiment | `Model/Average` (on top of `Model/Sampler`, `Model/Stats`) |
| `geometry/sphere.py:12-72`, `geometry/pbc.py:187-203` as moves of a walker | `Model/SphereMove` (on top of `Model/Geometry`) |
| `utils/cli.py:13-61`, `utils/runtime.py:140-164`, `workflow/base.py:128-186` | `Model/Cli` |
| `writer/wandb.py` | `Model/Wandb` (the package by its documented behaviour) |
| `legacy dmc/state.py:36-63`, `hamiltonian.py:154-203`, `branch_fix_size.py` on lists | `Model/DmcStart` |

Not modelled: the option parser of the command line (`app/cli.py`), logging,
the rest of `utils/runtime.py` (device set-up), `optimizer/kfac` (wraps an external package),
the PySCF calculation started by `utils/atomic/scf.py`, the element tables, the XML parser
of the pseudo-Hamiltonian tables, and preset configurations.

## Plan per property

| id | modelled | how proved |
|---|---|---|
| C01 | file names `ckpt_%06d`, lexicographic order on strings, reverse sorted scan | string-order = numeric-order lemma below 10^6; concrete counterexample at 10^6 |
| C02 | directory as list of (name, outcome of reading) with exceptions as values | induction on the sorted listing |
| C03 | pytrees (dict, sequence, attribute, leaf), flatten-with-path, npz as association list | induction on trees; injectivity of slash-joined paths |
| C04 | CSV file as list of lines, open/truncate/write/crash | invariant over event histories |
| C05 | HDF5 file as key → rows | invariant over event histories |
| C06 | evaluation HDF5 append file and checkpoint | negation by concrete history; partial theorem for graceful histories |
| C07 | run loop with clock oracle | induction over steps |
| C08 | run loop with signal oracle + restarts | induction over restarts |
| C09 | run loop + crash oracle | induction over restarts |
| C10 | VMC loop with NaN predicate | negation with concrete history + positive partial theorem |
| C11 | option trees, `deep_merge`, layers | tree induction |
| C12 | visited set, unused-path search, finalize | tree induction, iff statement |
| C13 | section reader | negation + partial |
| C14 | set-path, get-path | induction on path |
| C15, C16 | data as ordered field map | list lemmas |
| C17 | list chunks | arithmetic on slices |
| C18 | shards as list of lists over a field | algebra |
| C19 | pipeline as ordered key-owner map | list induction |
| C20 | histogram fold with Kahan compensation over an exact field | induction |
| C21 | prefix filter + sum | permutation invariance |
| C22, C23 | finite sums over ℝ/ℂ; clamp | algebra, negation in the complex case |
| C24 | field maps and sampler list | list induction; negation for overlapping fields |
| C25, C27 | Metropolis step as state machine over an oracle stream | invariant |
| C26 | finite chain | measure of {u : log u < r}, detailed-balance algebra |
| C28–C31 | ℝ vectors with `Int.floor`/`round` | real arithmetic, negation for general cells |
| C32, C33 | functions on `Fin n → ℝ^3`, polar angles | real arithmetic |
| C34, C35 | integer grid filter; sign of cell volume | integer case analysis; negation |
| C36, C37 | integer matrices, box enumeration, half-open cell filter | counting argument; negation |
| C38, C39 | the redistribution loop | termination + invariant; negation for C39 |
| C40 | component trees | tree induction |
| C41 | power law on ℝ | monotonicity |
| C42 | list splitting | induction |
| C43 | SSA programs with reference counts | simulation invariant |
| C44 | triples over finite index types | Mathlib calculus |
| C45 | owner-sparse Jacobian | pointwise equality of expansion |
| C46, C47, C48 | string functions; directory listing | list induction |

| C49 | glob matching of stage prefixes | induction on patterns; negation for glob characters in names |
| C50 | CSV writer rows against the header | list induction; partial for a constant key set |
| C51 | keys as free terms over the history of launches | negation by a concrete restart; partial statement |
| C52 | collection edits as a fold over option trees | tree and list induction |
| C53 | batch axes per field | pointwise equality |
| C54 | run loop + digest writing | history invariant; two negations |
| C55, C56 | proposals and statistics keyed by name | free keys; negations for shared keys and names |
| C57 | zeros of the periodic distances | trigonometry over ℝ; negation for the hexagonal cell |
| C58 | Ewald energy as finite sums with arbitrary erfc | re-indexing of sums |
| C59, C60 | electron counts and initial positions | arithmetic; negation for charged systems |
| C61 | process index and writers | case analysis |
| C62 | all feature, backbone, envelope and determinant layers with arbitrary weights | equivariance layer by layer, `Matrix.det_permute` |
| C63 | log-sum-exp of determinants over ℝ and ℂ with NaN/−inf outcomes | algebra of exp/log |
| C64 | translation of all coordinates | layer by layer |
| C65 | twists, Bloch phases and periodic features | exp identities |
| C66, C67 | monopole harmonics, spinor products, Jastrow factors over ℂ | antisymmetry by row exchange; flux by counting spinor degrees |
| C68 | kinetic energy in both modes as a functional of an arbitrary differentiable log ψ | Mathlib `fderiv`; `D_exp` calculus; composition with C44 |
| C69, C70 | covariant derivative, magnetic Laplacian and L² on the sphere | directional-derivative calculus; lowest-Landau-level functions are eigenfunctions |
| C71, C72 | quadrature tables and the random rotation over ℝ | moments of Mathlib's surface measure; invariance under rotations; for the bias, double integral over the draws |
| C73 | radial tables, nearest cores, wrapped positions and Bloch phases, Legendre projections | C71 for polynomials; list folds; C30 for the wrapping |
| C74 | swaps, log-sum-exp, sums over minority and majority | Pauli matrices on spin variables, sums over pairs |
| C75 | Jastrow sum over pairs | one-sided derivatives |
| C76-C78 | score, clipping, centring, chunked and sharded Gram matrix, lift of the null space, solve, state | the push-through identity F O = O (D A), positive definiteness, invariant over histories, reindexing of sums |
| C79 | power iteration from a fixed vector | Rayleigh quotients; explicit matrix orthogonal to the start vector |
| C80-C82 | manager, workspace and save directory, metric buffer, driver loop with recovery wrapper, kills at every stage of a copy, restarts | one inductive invariant over all events; the trajectory is a ghost computed from the observations only |
| C83 | selection of files to remove, with the shadowed argument | unfolding; the documented selection is a separate predicate |
| C84, C85 | sort by weight, merge pairs, split, repeat rows; draws as inputs | sums over disjoint index updates; integrals over the draws in the unit interval |
| C86-C88, C90 | sliding windows, running sums, cutoffs, offset, padding and reshaping | induction over calls; algebra of exponentials; chunk/flatten lemmas |
| C89 | velocity clipping, drift, proposal density, acceptance with sign test and age | case analysis on signs; induction over moves |
| C91 | proposal as function of the draws; draw laws as Mathlib measures | spherical coordinates derived from polar coordinates; change of variables; mixture |
| C92 | mass matrix, divergence vector, contractions, Cholesky, shifted function | derivatives of psi = s exp(f); L^2 as a second-order operator; LL^T = M by the column algorithm |
| C93 | reconstruction from channels, linear interpolation, zero-order term, atom selection | counting grid points; linearity of interpolation |
| C94 | lossAndGrad on a batch of configurations; walkers as a product measure | derivative of the quadratic form of a symmetric operator; integrals over product measures |
| C95 | axis selection, projection or fractional coordinate, linspace edges, histogram over a run | C20 counts; floor; uniqueness of fractional coordinates; counterexample for a skew cell |
| C96 | pairwise angles, weighted histogram, running state, sharding of the state | C20 bins; integral of the weight against the pair density; uniform law through rotation invariance of the area |
| C97 | orbitals with the clip, trial point from the draws, ratio of amplitudes, means | Fubini; beta integrals for orthonormality; expansion in the orbitals |
| C98 | potential, dictionary of statistics, penalty, loss key | C69, C70; C94; an explicit family with a parameter in the phase only |
| C99 | orbital extraction, wrapping and phases, padding, flattening of batches, block determinants | uniqueness of the wrapped position; block-diagonal determinants; summability over a Z-lattice |
| C100 | mixing of log amplitudes with -inf, block target, mean of squares with broadcasting | real powers; sums of squares; counterexample for split determinants |
| C101 | spherical coordinates, Legendre functions by Rodrigues' formula, construction lists, segment sums, gathers | explicit coefficients; Laplacian of polynomials; repeated integration by parts; list induction |
| C102, C103 | masked means over devices with NaN and infinities as values, outlier mask, clipping, partition | masked mean = mean of a filtered list; permutations; covariance algebra; small counterexamples |
| C104, C105 | permutation sums with log-sum-exp shift, masks and clips with all options | identification with C74; change of variables by swaps; case analysis of the options |
| C106, C107 | gradients on batches through the masks; quotients with the maximum split off | list algebra; differentiation under the integral; Cauchy-Schwarz with equality case |
| C108 | component loop with key splitting, dictionaries, keyword filtering | induction over components; case analysis of names; sum of the derivatives |
| C109 | element table and PySCF library as parameters; resolution of atoms, dictionary of tables, list of estimators, pipeline up to TotalEnergy | mapM and fold induction; flattened Laplacian; composition of C19/C21, C68, C92; pair sums under permutations |
| C110 | the three estimators through the pipeline | explicit derivatives of the norm; polar coordinates and Gamma integrals |
| C111 | cell from lengths and angles, presets in exact arithmetic, formula scanner | Gram matrix algebra; integer quadratic forms; list positions of the alkane blocks |
| C112 | resolution of the basis, tiled lists, Ewald particles, estimator pipeline, shifted k-points | indexing of tiled lists; composition of C19/C21, C36, C37, C58, C65, C68; explicit complex Laplacian |
| C113 | five ways of the kinetic energy, Coulomb sums, mass tensor fold, Cholesky coordinates | list surgery of chunks; reduction to C68 and C92/C93 |
| C114 | Legendre closed forms, rules by name, channels by position, grouping by element, sorted selection | Bonnet induction for degrees; C71 exactness; permutation of filtered lists |
| C115 | data dictionaries built by the loop, merging, routing, total | loop invariant on the dictionary; composition of C113 and C114 |
| C116 | arrays with shapes, reshape to rows, statistics, patterns | row-major multi-indices; linearity in the weights; diagonal/off-diagonal split of the double sum over positions |
| C117 | diagonal statistics, fold of moving averages | list induction on the history; Cauchy-Schwarz; positive semidefinite cones |
| C118 | real and imaginary vjp, try/finally, chain of learning rate and preconditioner | componentwise derivatives; quadratic forms of the inverse |
| C119 | every intermediate array of the handwritten rule | product, chain and quotient rules for (value, gradient, Laplacian), own-electron support by unit matrices |
| C120 | rules as functions of kinds and shapes, slices and stacks of arrays, recorded history of `vmap` | induction on the history from the outermost `vmap`; fold over registry operations |
| C121 | traced programs as mutual inductive types with their semantics, and the backward analysis on them | mutual structural induction: inputs agreeing on active positions give outputs agreeing on wanted positions; invariant over the iterations of loops |
| C122 | `update_fn` on the active columns with gather and scatter | sums over parameters reduce to the active ones; Gram matrix by C78; rewriting |
| C123 | programs as decision trees of reads, each recording what it read | merging seen at paths; what is recorded absorbs all layers below it; induction on the program with a frame lemma for later reads |
| C124 | classes as lists of fields, `module_config` as loader and dumper of a field | lawfulness of classes from lawfulness of fields, and of module fields from lawfulness of classes, with the path lemmas of C123 |
| C125 | signatures, binding of arguments, the wrapper of configured functions, fields of optax classes | characterisation of successful calls, lookups in unions and filters of keyword lists |
| C126 | every piece of code as the list of keys with which it draws | draws inside disjoint subtrees, composed along splits, loops and devices |
| C127 | plans as association lists, adaptation from an arbitrary state | invariant of the history slots (latest ratio in each slot, slots beyond the period untouched), then the mean at the end of a period |
| C128 | one step, burn-in, the loop with its rows and its end | induction on the remaining steps; `List.splitOn_intercalate` for the monitored names |
| C129 | assignment loop and positions | invariants per atom; the number of surplus up electrons decreases at each effective draw, fairness gives the next one |
| C130 | iteration and loop of the legacy DMC | an invariant over the log of attempts, kept by every pass; C84, C86 give weights and estimator |
| C131 | the indentation stack against a labelled rendering of nested mappings | induction on the document; the stack is the path plus deeper leftovers |
| C132 | console lines, warnings, time per step | induction on the writes; telescoping of durations |
| C133 | rows on devices; gather, save, restore on another mesh; histogram rows | blocks of equal length are recovered from their concatenation; invariant of the rows over the steps |
| C134 | SR step composed with the reported gradient | normal equations of damped least squares; C76, C22 composed |
| C135 | the sampler's model with draws on a probability space | one update preserves the density (detailed balance, Lebesgue integration), induction over updates with independence of fresh keys, C94's averages |
| C136 | `sphereMoveAll`, `pbcMoveAll` in the setting of C135 | area is invariant under rotations (polar coordinates and the volume of space), hence the average over all rotations is invariant on both sides, and the move is one rotation by a symmetric angle; for the cell, integrals of periodic functions do not depend on the fundamental domain |
| C137 | the walkers and reported energies of C135 with the move of C136 for solids, from arbitrary starting places | one proposal reaches every part of the cell with at least a fixed share of its volume (the Gaussian density is bounded below on a bounded set), so one update covers a fixed share of the target (Doeblin), and every update shrinks the range of averages by a fixed factor; induction over the updates |
| C138 | the walkers and reported energies of C135 with the moves of molecules, solids and the sphere, from arbitrary starting places | the update is a self-adjoint contraction for the squared wavefunction; correlations of iterates are monotone, so iterates converge in mean square; because two updates in a row can go between almost any two places, limits are constant; a walker that starts at a point first makes an accepted move, whose law has a density, and this has a chance below one to take more than any given number of updates |
| C139 | the walkers and reported averages of C135, as random variables, from arbitrary starting places | a law of large numbers: draws at fresh keys are independent of the past, so first and second moments of sums of readings follow recursions in the update operator of C138; correlations go to zero, so the second moment grows slower than the square of the number of readings; quantities without bound are truncated and the rest is small on average because the distribution is kept; a start at a point is reduced to a start in the distribution by the burn-in of C138, and the readings of the burn-in are tight |
| C140 | the variance of `mean_reduce` on the real parts of the walkers' energies, averaged over the steps of an evaluation (`stepVar`, `reportedVar`), on the walkers of C135 | moments of one walker from C135; different walkers are independent because they start independently and read disjoint sets of independent draws; the variance of the local energy as a norm in L2; a two-point system for the complex case |
| C141 | loss and gradient of `loss_grad.py` on the walkers the sampler leaves (`stepGradient`, `sampledGradient`), with the sampler of C135 and the gradient estimator of C22/C94 | each walker is a function of its own start and its own finite set of draws, so all are independent together; C94 for the averages; the strong law for large batches; product laws are near when their factors are (hybrid argument), with C138 for each factor |
| C142 | the main loop of `vmc.py` with the sampler of `mcmc.py` and its adapted width, for an arbitrary measurable rule that computes the next trainable state (`trainRun`) | what a run holds before a step is a measurable function of the starts and of the draws used so far, with the width as a function of the (countable) history of acceptance counts; it is independent of the draws of the step; for each fixed past the walkers mix at one rate (C137) and are independent (C141); Fubini |
| C143 | `optax.sgd` as wrapped by `optimizer/optax.py` in the main loop of `vmc.py`, on the gradients of `estimator/loss_grad.py` without clipping (`sgdUpdate`, `descended`) | the energy lies below its parabolas, so each step lowers it by the learning rate times slope times sampled gradient, up to a square; the sampled gradient averages to 1 - 1/N times the slope for an independent sample (C94), and the batch is nearly one given the past (C142); add up the steps |
| C144 | the `loss` of `estimator/loss_grad.py` in the main loop of `vmc.py` (`trainLoss`) | given the past the batch is nearly an independent sample from the wavefunction of the current parameters (C142); for such a sample the mean of the local energies has the energy as mean and a variance over N; the clipped values do not enter |
| C145 | `Standard` of `optimizer/schedule.py` (`standard`) in the runs of C143 | the bound of C143 divided by the sum of the learning rates: their squares do not matter in the long run if they go to zero; the standard schedule is above a multiple of 1/(t+1) for exponents up to one, summable above; then the steps add up to a bounded distance |
| C146 | the runs of C143 and C144, and `srUpdate`: the optimizer of C76 in the same loop (`Model/NearExact`) | clipping keeps the energies between their bounds; a covariance of two bounded quantities; induction over the run with the walkers off the nodes (a proposal where the wavefunction vanishes is never accepted); without gradient and momentum the robust step is zero; a free particle on a ring as example |
| C147 | the run of C130 with the default start (`Model/DmcStart`: masked mean energy, `State.default`, fixed-size branching on lists) | both branchings select walkers and keep weights positive; weighted means and the mixed estimator (C86) stay between bounds; with equal energies the growth of weights is zero and unit weights are not branched; induction over the passes |
| C148 | the W&B writer and the package as a log of events with the active run (`Model/Wandb`) | an invariant over histories: what was sent, a small checker of the order of events (`Spec/Wandb: play`), starts and ends paired |
| C149 | the run loop of `Model/DmcRun` | induction over the run: the invariant of C147 with the total weight of every row in terms of the row before |
| C150 | a launch as a function of files, options and a workflow that is any program reading the configuration (`Model/Cli`, on top of `Model/Config`) | two sessions that differ by one section simulate each other; the search for unused options does not see names that are in no option |

## Where the code and a property disagree

Each line is a theorem (or pair of theorems) exhibiting the failure on a concrete case.

* Persistence: checkpoints beyond step 10^6 sort wrongly (`c01_million`); damage surfacing as another exception
  kind aborts the restore (C02); colliding slash-joined keys (C03); torn CSV header, forks duplicate rows (C04);
  unflushed HDF5 rows (C05); evaluation rows duplicated after a hard kill (C06); the NaN state becomes the newest
  checkpoint (C10); glob characters capture another stage's files (C49); a changing key set misaligns the CSV
  columns (C50); the same random keys are reused after a restart (C51); the digest can be lost for ever (C54).
* Configuration: dotted YAML keys are silently ignored (C12); a scalar given for a section is dropped (C13); the
  batch check raises TypeError or is disabled (C16); `check_wired` does not recurse and presets are rejected (C40);
  ambiguous console specifications (C46); missing imports select an unrelated module (C47).
* Statistics: unequal NaN counts bias the mean and `_var` names collide (C18); two estimators with one name (C19);
  the complex baseline lacks a conjugate, NaN walkers bias the gradient (C22); overlapping samplers (C24);
  lock-step proposals (C55); `pmove` overwritten (C56).
* Geometry: minimum image of far or skewed displacements (C29); the hexagonal `tri` distance vanishes between the
  honeycomb sublattices (C57); the sphere's seam and poles (C33); supercells missing the origin (C36), wrong or
  missing k-points (C37); left-handed lattices in the Ewald sum (C35).
* Electrons: inverted sign of local charge (C39), charged systems rejected (C59).
* Forward Laplacian: aliasing division, name collisions, non-holomorphic functions (C44); empty sums, plain segments,
  |x| at 0 and ties in the sparse encoding (C45).
* Wavefunctions: NaN where every determinant vanishes (C63); odd `flux_per_elec` (C66), `cf_flux ≠ 1` (C67).
* Effective core potentials: the random rotation is not uniform, so the quadrature is biased beyond its degree (C72).
* Jastrow parameters may become negative, where the factor has a pole (C75).
* `max_cond_num`: ten power iterations from a fixed vector may underestimate the largest eigenvalue by any factor (C79).
* DMC: a kill during the (non-atomic) copy of a data file makes every later start raise (C82); `clean_up_save_path` removes nothing (C83).
* DMC fixed-size branching changes the total weight with tied weights or a draw on a threshold (C85); variable-size branching raises for small populations of small weights (C84).
* DMC: `effective_time_step_update_period` has no effect (`should_update_effective_time_step`, dmc.py:287-289, is never passed on); rejected outlier iterations still change the effective time step calculator; NaN positions are turned into the origin (dmc.py:771); the random key is not in the DMC data.
* PH: a requested element that is absent is silently ignored when another requested one is present (C93); the forward backend conjugates one gradient for complex wavefunctions (documented) (C92).
* The batch gradient carries a factor 1 - 1/N and, for complex log-derivatives, a 4/N bias because the baseline multiplies batch means without conjugation (C94).
* The fractional density uses `inv_lattice.T` with lattice vectors as rows (fractional.py:77, solid/workflow.py:257): for non-symmetric lattice matrices the coordinates refer to the columns and the density is not periodic (C95).
* Pair correlation: `init` lacks the device axis that `histogram.py` has, so it fails on several devices (C96).
* The one-RDM orbitals are clipped near the poles; the trace is not exactly the number of electrons (C97).
* The angular momentum penalty uses real parts of local values (spherical.py:103-106, 215-218), which removes it from the gradient with respect to the phase (C98).
* Pretraining with `full_det=False` pairs spin blocks with determinants (`zip(target, orbitals)`, pretrain.py:123-125) (C100); a spin without occupied orbitals is skipped silently (C99).
* Legacy energy loss: without clipping masked walkers shrink the gradient; with clipping devices with different numbers of kept walkers are averaged with equal weight, and a device without any makes it NaN (C103). Exact eigenfunctions give NaN when outliers are removed (C102, C105).
* Legacy spin penalty: `rm_outlier` with width 0 or one-sided bounds raises UnboundLocalError; the step is never advanced by the loss itself (C105). Both penalties report 0 (documented in the code); misspelt keyword arguments of `make_loss` are ignored (C108); surplus overlap targets without weight are ignored (C107).
* Legacy ECP: channels are used by their position in the table, never by their angular momentum (C114); an element listed both as pure and as hybrid pseudo-Hamiltonian is counted twice (C115); `ecp_energy_optim` ignores hybrid elements (C115).
* KFAC: `fixed_scale` counts the sizes of all but the last contracted axis as repetitions (C116); dense layers without repeated axes but with two input or output axes are tagged and then fail in `einsum` (C116); `generic` blocks square the derivative summed over the batch (C117); `vjp_rc_with_aux` looks at the type of the first leaf only (C118).
* `_supports_local1_attention` does not check that the particle axis is the first axis of the tracked input, but the rule orders its rows as if it were (C119).
* `custom_laplacian` under an inner `vmap` refuses arguments with sparse Jacobians (they are no pytrees), even for rules that would decline them (C120).
* `get_eqn_active_input_positions` analyses one iteration of a `scan`, so a parameter that reaches a wanted carry only through another carry in a later iteration is pruned; and it does not offset positions in `cond_jaxpr`/`body_jaxpr` by the numbers of constants of a `while` (C121). Pruning is off in `sr.py`, so this concerns direct users of the solver.
* With `score_norm_clip` the clipped row mean runs over active parameters only, so `prune_inactive` changes the result (C122).
* The saved `config.yaml` does not reproduce a run if a section was read after an option in it, or if the command line reopens a preset section that a file closed with a single value (C123).
* A `module_config` field set to a class from a `.py` file dumps the generated name `jaqmc_<uuid>:Class`, so the saved `config.yaml` does not load in another process (C124).
* Keyword arguments of `module_config`, and fields of an object given as default, are merged into the options of whatever class the user chooses; a class without these fields refuses the configuration (C124).
* A configured function cannot be called with a parameter that has a default by position (its default is already passed by keyword); an unknown option is noticed only when the function is called (C125).
* All samplers of a plan are initialised with the same random key (harmless for the shipped samplers, which do not use it) (C126).
* Resuming or evaluating with a smaller `adapt_frequency` than the checkpoint was made with leaves stale acceptance ratios in the history for ever; the MCMC width then shrinks to zero or grows without bound (C127).
* `stop_on_nan` does not see NaNs in the gradient (removed before the check) or in imaginary parts, and in `"a, b"` the second name is ignored because of the space (C128).
* `init_electrons` loops for ever if more up electrons are requested than the atoms start with, or if `electrons` is a list (C129); `pp/utils/init_electrons.py` cannot be imported (`from . import system`).
* Legacy DMC: `effective_time_step_update_period` and `anchor_energy` have no effect; attempts rejected as outliers still count in the effective time step (C130).
* Keys with spaces are not recognised when sources are annotated; their children are annotated as children of the grandparent (C131).
* Estimator states are sharded over the devices but not gathered before a checkpoint: with several processes an evaluation with a density histogram cannot be saved; and resumed on fewer devices such a histogram counts later steps several times (C133).
C135: with width adaptation on, the chain is no longer stationary (`c135_adaptation`): a bias of the evaluation that the pmove-based adaptation introduces, since adaptation goes on during evaluation.

Properties may be appended; the tables grow with them.
