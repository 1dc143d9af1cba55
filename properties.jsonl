{"id": "C01", "title": "Restore picks the most recent checkpoint", "statement": "When a run directory contains any set of intact checkpoints, restoring from that directory returns the state that was saved last (the one with the greatest step number) together with that step number plus one.", "quantifier": "every finite set of checkpoint steps in a directory, of any magnitude", "why_tests_cant": "Tests use a handful of small step numbers; the ordering of zero-padded file names must agree with numeric order for every pair of steps a long run can produce.", "anchors": ["src/jaqmc/utils/checkpoint.py:NumPyCheckpointManager.restore", "src/jaqmc/utils/checkpoint.py:NumPyCheckpointManager.save"]}
{"id": "C02", "title": "Damaged checkpoints never hide an older good one", "statement": "If some checkpoint files are truncated or damaged, restore returns the newest file that can still be read; it falls back to the fresh initial state (step 0) only when no file can be read, and in strict mode it raises instead of silently starting afresh.", "quantifier": "every directory listing and every subset of its files damaged by crashes", "why_tests_cant": "The set of crash patterns (which files are torn) is exponential in the number of checkpoints.", "anchors": ["src/jaqmc/utils/checkpoint.py:NumPyCheckpointManager.restore"]}
{"id": "C03", "title": "Checkpoint save/load round trip", "statement": "Saving any state tree and loading it back against a tree of the same structure gives the same leaves in the same places; two different leaves never overwrite each other in the file.", "quantifier": "every nested tree of dictionaries, sequences and array leaves", "why_tests_cant": "Trees are unbounded in depth, width and key spelling; a collision needs an unlucky combination of keys.", "anchors": ["src/jaqmc/utils/checkpoint.py:tree_to_npz", "src/jaqmc/utils/checkpoint.py:tree_from_npz"]}
{"id": "C04", "title": "CSV statistics survive any crash and resume", "statement": "After any sequence of crashes and resumes, the CSV statistics file holds one header line followed by exactly one row per completed step, in step order, with no gap and no duplicate.", "quantifier": "every history of write / crash / resume-at-step-k events", "why_tests_cant": "Histories are unbounded interleavings of row writes, crashes and restarts from an earlier step.", "anchors": ["src/jaqmc/writer/csv.py:CSVWriter", "src/jaqmc/writer/csv.py:_truncate_to"]}
{"id": "C05", "title": "HDF5 statistics survive any crash and resume", "statement": "After any sequence of crashes and resumes, row i of every dataset in the HDF5 statistics file is the value the step i of the surviving timeline wrote.", "quantifier": "every history of write / crash / resume-at-step-k events and every set of keys", "why_tests_cant": "Histories and key sets are unbounded.", "anchors": ["src/jaqmc/writer/hdf5.py:HDF5Writer"]}
{"id": "C06", "title": "Evaluation averages each step exactly once", "statement": "The digest an evaluation run reports is computed from exactly one row per evaluated step, no matter where the run was killed and resumed.", "quantifier": "every kill point between checkpoints and every resume", "why_tests_cant": "The kill can fall between any row write and the next checkpoint.", "anchors": ["src/jaqmc/workflow/stage/evaluation.py:HDF5ReadWrite", "src/jaqmc/workflow/stage/evaluation.py:EvaluationWorkStage"]}
{"id": "C07", "title": "Checkpoint schedule of a stage run", "statement": "With a positive save interval, a stage run saves a checkpoint after step i (unless it is stopped there by a NaN or a termination signal, in which case it saves too) exactly when i is the last step, or when the step interval divides i+1 and more than the configured time has passed since the last save; hence a finished run always ends with a checkpoint of its final state.", "quantifier": "every number of iterations, start step, save interval and clock behaviour", "why_tests_cant": "The decision depends on wall-clock readings and unbounded iteration counts.", "anchors": ["src/jaqmc/workflow/stage/base.py:WorkStage.run"]}
{"id": "C08", "title": "Interrupt loses no completed step", "statement": "If a termination signal or an abort stops a stage after step i, the state after step i is on disk and a restart continues with step i+1, so over any number of interruptions the steps executed are exactly 0..iterations-1 once each.", "quantifier": "every schedule of interruptions and restarts", "why_tests_cant": "Signals may arrive at any step of any restart.", "anchors": ["src/jaqmc/workflow/stage/base.py:WorkStage.run", "src/jaqmc/utils/signal_handler.py:GracefulKiller"]}
{"id": "C09", "title": "A crash loses at most the work since the last checkpoint", "statement": "After a hard crash at any point, a restart resumes from the last completed save; replaying from there reaches the same final state as an uninterrupted run whenever a step depends only on the checkpointed state and the step number.", "quantifier": "every crash point and every deterministic step function", "why_tests_cant": "Crash points are arbitrary and the step function is user-supplied.", "anchors": ["src/jaqmc/workflow/stage/base.py:WorkStage.run", "src/jaqmc/utils/checkpoint.py:NumPyCheckpointManager"]}
{"id": "C10", "title": "A NaN abort does not poison the restart", "statement": "When training stops because the loss became NaN, a later restart resumes from a state in which the loss was finite.", "quantifier": "every training history that reaches NaN at some step", "why_tests_cant": "Which step diverges depends on the data.", "anchors": ["src/jaqmc/workflow/stage/vmc.py:VMCWorkStage", "src/jaqmc/workflow/stage/base.py:WorkStage.run"]}
{"id": "C11", "title": "Configuration precedence", "statement": "For every option path, the effective value is the command-line value if given, else the user file's, else the preset's, else the default; values under unrelated paths are untouched.", "quantifier": "every nesting of option trees in every layer", "why_tests_cant": "Layers are arbitrary trees that may conflict at any depth.", "anchors": ["src/jaqmc/utils/config.py:deep_merge", "src/jaqmc/utils/config.py:ConfigManager"]}
{"id": "C12", "title": "Misspelt options are always reported", "statement": "Finishing configuration reports an option the user supplied if and only if no component ever read that option or an enclosing section, so a misspelt key cannot be silently ignored.", "quantifier": "every user option tree and every sequence of reads", "why_tests_cant": "The set of reads depends on which components a run constructs.", "anchors": ["src/jaqmc/utils/config.py:ConfigManager.finalize", "src/jaqmc/utils/config.py:_find_unused_yaml_path"]}
{"id": "C13", "title": "A supplied option is never silently dropped", "statement": "A value the user supplies for a section of options either takes effect or is reported as an error.", "quantifier": "every user value for every section", "why_tests_cant": "Needs every shape of user value, including scalars where a section is expected.", "anchors": ["src/jaqmc/utils/config.py:ConfigManager._get_dataclass"]}
{"id": "C14", "title": "Dotted command-line overrides set exactly one path", "statement": "An override a.b.c=v makes reading a.b.c return v and leaves every path that is neither above nor below a.b.c unchanged; overrides that would replace a scalar by a section raise an error.", "quantifier": "every tree, path and value, and every sequence of overrides", "why_tests_cant": "Paths and trees are unbounded.", "anchors": ["src/jaqmc/utils/config.py:_set_path", "src/jaqmc/utils/config.py:_get_path"]}
{"id": "C15", "title": "Data subset and merge laws", "statement": "Taking a subset of named fields of a data batch and merging it back is the identity on the batch; merging changes only the named fields; unknown names raise an error.", "quantifier": "every data class, field list and field values", "why_tests_cant": "Field sets and values are arbitrary.", "anchors": ["src/jaqmc/data.py:Data.subset", "src/jaqmc/data.py:Data.merge"]}
{"id": "C16", "title": "Batch consistency check", "statement": "Constructing batched data succeeds only if every batched field has the same leading size, and naming a batched field that does not exist raises the documented KeyError.", "quantifier": "every data object and field list", "why_tests_cant": "Shapes and field names are arbitrary.", "anchors": ["src/jaqmc/data.py:BatchedData.check"]}
{"id": "C17", "title": "Chunked mapping equals plain mapping", "statement": "Evaluating a per-walker function in chunks returns the same batch, in the same order, as evaluating it on the whole batch, for every positive chunk size, including sizes that do not divide the batch.", "quantifier": "every function, batch length and chunk size", "why_tests_cant": "All remainders of all lengths.", "anchors": ["src/jaqmc/utils/chunked_vmap.py:chunked_vmap"]}
{"id": "C18", "title": "Device-sharded statistics equal global statistics", "statement": "The mean and variance reported from a walker batch sharded over devices equal the mean and variance over all walkers, and the variance is non-negative.", "quantifier": "every number of devices and every batch of per-walker values", "why_tests_cant": "Shard counts and values are arbitrary.", "anchors": ["src/jaqmc/estimator/base.py:mean_reduce"]}
{"id": "C19", "title": "Estimator pipeline routes results to their owner", "statement": "In a pipeline of named estimators, each estimator's reduce and digest see exactly the values it produced itself, whatever other estimators are present; finalising before evaluating raises an error.", "quantifier": "every list of estimators and produced keys", "why_tests_cant": "Combinations of estimators are unbounded.", "anchors": ["src/jaqmc/estimator/base.py:EstimatorPipeline"]}
{"id": "C20", "title": "Histograms lose no counts", "statement": "The accumulated histogram equals the sum of per-step histograms, every in-range sample of every walker is counted exactly once, and the compensation term does not change the exact total.", "quantifier": "every sequence of batches and bin edges", "why_tests_cant": "Sequences of steps are unbounded.", "anchors": ["src/jaqmc/estimator/histogram.py"]}
{"id": "C21", "title": "Total energy is the sum of its contributions", "statement": "The reported total energy is the sum of every energy contribution produced by earlier estimators, independent of their order, and of nothing else.", "quantifier": "every set of produced statistics", "why_tests_cant": "Arbitrary key sets and orders.", "anchors": ["src/jaqmc/estimator/total_energy.py:TotalEnergy"]}
{"id": "C22", "title": "Energy gradient is invariant under constant energy shifts", "statement": "Adding a constant to every walker's local energy leaves the energy gradient unchanged (the baseline subtraction is exact).", "quantifier": "every batch of local energies and log-derivatives and every constant", "why_tests_cant": "Batches, parameters and constants are arbitrary; complex case differs from the real case.", "anchors": ["src/jaqmc/estimator/loss_grad.py:LossAndGrad"]}
{"id": "C23", "title": "Local-energy clipping bounds outliers only", "statement": "Clipping maps every local energy into the window centre±scale·width, leaves values inside unchanged, preserves order and is applied per configured method; an unknown method raises.", "quantifier": "every batch, method and non-negative scale", "why_tests_cant": "Arbitrary batches.", "anchors": ["src/jaqmc/utils/clip.py", "src/jaqmc/estimator/loss_grad.py:LossAndGrad"]}
{"id": "C24", "title": "Multi-block sampling composes", "statement": "When several samplers act on different fields, one sampling step applies each of them in turn, every later one seeing the earlier ones' moves, and no move is lost.", "quantifier": "every list of samplers and assigned fields", "why_tests_cant": "Arbitrary number of samplers and overlap of fields.", "anchors": ["src/jaqmc/sampler/base.py:SamplePlan.step"]}
{"id": "C25", "title": "Metropolis walkers carry their own log-probability", "statement": "After any number of Metropolis sub-steps each walker is either unchanged or at an accepted proposal and the stored log-probability is that of the stored position; acceptance is decided per walker and the acceptance ratio is in [0,1].", "quantifier": "every proposal stream, target density, number of steps", "why_tests_cant": "Unbounded step counts and random streams.", "anchors": ["src/jaqmc/sampler/mcmc.py:MCMCSampler"]}
{"id": "C26", "title": "Metropolis acceptance gives detailed balance", "statement": "With a symmetric proposal, the accept rule log u < logp(y) - logp(x) accepts with probability min(1, p(y)/p(x)), so the target density is stationary.", "quantifier": "every finite state space, positive target weight and symmetric proposal", "why_tests_cant": "A statistical identity: no finite sample decides it.", "anchors": ["src/jaqmc/sampler/mcmc.py:MCMCSampler"]}
{"id": "C27", "title": "Step-width adaptation is periodic and bounded", "statement": "The proposal width changes only once every adaptation period, by the fixed factor, upwards when the mean acceptance over the last period exceeds the window and downwards when it is below; it stays positive.", "quantifier": "every acceptance history and length", "why_tests_cant": "Unbounded histories.", "anchors": ["src/jaqmc/sampler/mcmc.py:MCMCSampler"]}
{"id": "C28", "title": "Minimum-image distance in an orthorhombic cell", "statement": "For a diagonal lattice the displacement returned is the shortest among all lattice images and is periodic under lattice translations.", "quantifier": "every box size, displacement and lattice translation", "why_tests_cant": "All images are an infinite set.", "anchors": ["src/jaqmc/geometry/pbc.py:build_distance_fn"]}
{"id": "C29", "title": "Minimum-image distance in a general cell", "statement": "For a general lattice the displacement returned is the shortest among all lattice images and is periodic under lattice translations.", "quantifier": "every lattice, displacement and translation", "why_tests_cant": "All images are an infinite set.", "anchors": ["src/jaqmc/geometry/pbc.py:build_distance_fn"]}
{"id": "C30", "title": "Wrapping positions into the cell", "statement": "Wrapping returns a position in the home cell that differs from the input by a lattice vector; it is idempotent and identical for all periodic images.", "quantifier": "every invertible lattice and position", "why_tests_cant": "Continuous domain and infinitely many images.", "anchors": ["src/jaqmc/geometry/pbc.py:wrap_positions"]}
{"id": "C31", "title": "Periodic distance features are periodic", "statement": "The smooth periodic distance features used by solid-state wavefunctions are unchanged when any particle moves by a lattice vector, and the trigonometric form is a real non-negative square root.", "quantifier": "every lattice, displacement, lattice translation", "why_tests_cant": "Continuous domain.", "anchors": ["src/jaqmc/geometry/pbc.py:tri_distance", "src/jaqmc/geometry/pbc.py:nu_distance"]}
{"id": "C32", "title": "Open-boundary pair distances", "statement": "Electron-electron displacements are antisymmetric, distances symmetric with zero diagonal, and electron-atom displacements equal electron minus atom for every pair.", "quantifier": "every number of particles and positions", "why_tests_cant": "All sizes.", "anchors": ["src/jaqmc/geometry/obc.py"]}
{"id": "C33", "title": "Spherical moves stay on the sphere", "statement": "A proposal move on the Haldane sphere maps valid polar angles to valid polar angles representing the point at the proposed rotation of the old one.", "quantifier": "every angle pair and Gaussian step", "why_tests_cant": "Continuous domain with singular poles.", "anchors": ["src/jaqmc/geometry/sphere.py"]}
{"id": "C34", "title": "Ewald reciprocal sum counts each vector pair once", "statement": "The reciprocal-space part of the Ewald sum includes exactly one of G and -G for every non-zero G within the cut-off box and never G=0.", "quantifier": "every cut-off", "why_tests_cant": "All cut-offs.", "anchors": ["src/jaqmc/estimator/ewald.py:EwaldSum"]}
{"id": "C35", "title": "Ewald sum works for either lattice orientation", "statement": "The Ewald energy does not depend on whether the three lattice vectors form a right-handed or left-handed set.", "quantifier": "every lattice", "why_tests_cant": "Sign of a determinant over a continuous domain.", "anchors": ["src/jaqmc/estimator/ewald.py:EwaldSum"]}
{"id": "C36", "title": "Supercell tiling is complete", "statement": "The supercell of a primitive cell under integer matrix S contains exactly |det S| copies of each atom, pairwise distinct modulo the supercell lattice.", "quantifier": "every invertible integer matrix S", "why_tests_cant": "Infinite family of matrices.", "anchors": ["src/jaqmc/utils/supercell.py:get_supercell_copies"]}
{"id": "C37", "title": "Supercell k-points fold to Gamma", "statement": "The list of k-points for a supercell has |det S| entries, each a reciprocal vector of the supercell, pairwise inequivalent in the primitive cell.", "quantifier": "every invertible integer matrix S", "why_tests_cant": "Infinite family of matrices.", "anchors": ["src/jaqmc/utils/supercell.py:get_supercell_kpts"]}
{"id": "C38", "title": "Initial spin assignment conserves electrons", "statement": "Distributing electrons over atoms terminates, gives every atom non-negative up and down counts, keeps fixed atoms as given, and the totals equal the requested numbers of up and down electrons; impossible requests raise.", "quantifier": "every list of atoms, charges and spin requests", "why_tests_cant": "A loop over arbitrary sizes.", "anchors": ["src/jaqmc/utils/atomic/initialization.py"]}
{"id": "C39", "title": "Atom charges follow the documented sign", "statement": "A positive local charge assigned to an atom means fewer electrons on that atom, whether or not its spin imbalance is also fixed.", "quantifier": "every atom, charge and imbalance", "why_tests_cant": "Combination of optional settings.", "anchors": ["src/jaqmc/utils/atomic/initialization.py:_atom_initial_spin_config"]}
{"id": "C40", "title": "Every required dependency is supplied before use", "statement": "Wiring a tree of components sets every late-bound attribute from the context, including nested components, and reports a component as unwired exactly when some required attribute is missing.", "quantifier": "every component tree and context", "why_tests_cant": "Trees unbounded.", "anchors": ["src/jaqmc/utils/wiring.py"]}
{"id": "C41", "title": "Learning-rate schedule", "statement": "The standard schedule starts at the configured rate, is positive and never increases with the step.", "quantifier": "every step and positive parameters", "why_tests_cant": "Unbounded steps, real parameters.", "anchors": ["src/jaqmc/optimizer/schedule.py:Standard"]}
{"id": "C42", "title": "Spin-channel splitting is lossless", "statement": "Splitting an array into its non-empty spin channels and concatenating the pieces gives back the array, whichever channels are empty.", "quantifier": "every array and channel sizes", "why_tests_cant": "All sizes.", "anchors": ["src/jaqmc/utils/array.py:array_partitions", "src/jaqmc/utils/array.py:split_nonempty_channels"]}
{"id": "C43", "title": "The forward-Laplacian interpreter frees only dead values", "statement": "Evaluating a traced program with reference-counted value release gives the same outputs as evaluating it with all values kept; no value is missing when read.", "quantifier": "every well-formed straight-line program", "why_tests_cant": "Programs are unbounded.", "anchors": ["src/jaqmc/laplacian/interpreter.py:JaxExprEnvironment"]}
{"id": "C44", "title": "Forward Laplacian is the Laplacian", "statement": "For every program built from supported operations, the triple (value, Jacobian, Laplacian) carried by the forward-Laplacian transform equals the true value, first derivatives and Laplacian of the function the program computes.", "quantifier": "every composition of supported primitives and every smooth input point", "why_tests_cant": "Programs and input points are unbounded.", "anchors": ["src/jaqmc/laplacian/primitives/core.py", "src/jaqmc/laplacian/primitives/arithmetic.py", "src/jaqmc/laplacian/types.py:LapTuple"]}
{"id": "C45", "title": "Sparse Jacobians are only an encoding", "statement": "Running a rule on a sparse (owner-local) Jacobian and expanding the result to dense form gives the same result as running the rule on the dense Jacobian.", "quantifier": "every sparse Jacobian and supported operation", "why_tests_cant": "Shapes and owner layouts are unbounded.", "anchors": ["src/jaqmc/laplacian/sparse.py", "src/jaqmc/laplacian/primitives/sparse_ops.py"]}
{"id": "C46", "title": "Console field specifications parse unambiguously", "statement": "A console field written [alias=]key[:format] is parsed back into the alias, key and format it was written from.", "quantifier": "every alias, key and format", "why_tests_cant": "Arbitrary strings.", "anchors": ["src/jaqmc/writer/console.py:FieldSpec.parse"]}
{"id": "C47", "title": "Object references resolve as documented", "statement": "A module path of the form module:name resolves to that attribute of that module, and malformed references raise.", "quantifier": "every reference string", "why_tests_cant": "Arbitrary strings.", "anchors": ["src/jaqmc/utils/module_resolver.py:resolve_object"]}
{"id": "C48", "title": "Config backups never overwrite", "statement": "Preparing a run directory never overwrites a previous configuration that differs from the new one: the old file is kept under a fresh name.", "quantifier": "every directory content and number of earlier runs", "why_tests_cant": "Unbounded histories of runs.", "anchors": ["src/jaqmc/workflow/base.py:Workflow"]}
{"id": "C49", "title": "Stages sharing a directory do not mix checkpoints", "statement": "When several stages save into one directory, restoring one stage never returns a checkpoint written by another stage.", "quantifier": "every pair of stage names and step", "why_tests_cant": "Stage names are arbitrary strings.", "anchors": ["src/jaqmc/utils/checkpoint.py:NumPyCheckpointManager"]}
{"id": "C50", "title": "CSV columns match the header", "statement": "Every row of the CSV statistics file has, under each column name of the header, the value this step reported for that name.", "quantifier": "every sequence of statistics dictionaries", "why_tests_cant": "The keys of the statistics are chosen by user-supplied estimators at every step.", "anchors": ["src/jaqmc/writer/csv.py:CSVWriter.write"]}
{"id": "C51", "title": "Randomness after a restart is fresh", "statement": "The random keys used by the steps after a restart are not those already used by the steps before it.", "quantifier": "every restart point and seed setting", "why_tests_cant": "Ranges over all interruption histories.", "anchors": ["src/jaqmc/workflow/stage/base.py:WorkStage.run", "src/jaqmc/workflow/stage/vmc.py:VMCWorkStage.loop", "src/jaqmc/workflow/vmc.py"]}
{"id": "C52", "title": "Component collections follow the user's edits exactly", "statement": "Setting a default component of a collection (writers, estimators) to null removes exactly that component; the other defaults are kept, configured ones get the user's options merged over the defaults, and new ones are added.", "quantifier": "every default collection and user section", "why_tests_cant": "Arbitrary nested user sections.", "anchors": ["src/jaqmc/utils/config.py:ConfigManager.get_collection"]}
{"id": "C53", "title": "Fully batched data shows each walker the same values", "statement": "Converting a batch to fully batched form gives, for every walker and every field, the value that walker sees when the original batch is mapped: its own row of a batched field and the shared value of a shared field.", "quantifier": "every batch size, every assignment of fields to batched or shared, every walker", "why_tests_cant": "Ranges over all batch sizes and field layouts.", "anchors": ["src/jaqmc/data.py:BatchedData.fully_batched_data", "src/jaqmc/data.py:BatchedData.vmap_axis"]}
{"id": "C54", "title": "A finished evaluation has its digest", "statement": "Once an evaluation has run all its configured steps, with any interruptions and restarts in between, the digest of the averaged statistics exists and covers all steps.", "quantifier": "every interruption history (signals, kills at any point, restarts)", "why_tests_cant": "Ranges over all interruption histories.", "anchors": ["src/jaqmc/workflow/stage/evaluation.py:EvaluationWorkStage", "src/jaqmc/workflow/stage/base.py:WorkStage.run"]}
{"id": "C55", "title": "Fields moved by one sampler move independently", "statement": "A sampler assigned to several fields displaces each of them by its own independent noise, so that the joint moves can reach every configuration.", "quantifier": "every set of fields, every random stream, every number of updates", "why_tests_cant": "Needs all reachable configurations.", "anchors": ["src/jaqmc/sampler/mcmc.py:gaussian_proposal"]}
{"id": "C56", "title": "Every sampler's statistics are reported", "statement": "The statistics of a sampling step contain what each sampler of the plan reported.", "quantifier": "every list of samplers", "why_tests_cant": "Arbitrary lists of samplers and statistic names.", "anchors": ["src/jaqmc/sampler/base.py:SamplePlan.step"]}
{"id": "C57", "title": "Periodic distances vanish only where particles coincide", "statement": "The smooth periodic distance between two particles is zero exactly when they are periodic images of each other, so distinct particles are never confused.", "quantifier": "every cell, every displacement, both distance types", "why_tests_cant": "Needs all displacements in the cell.", "anchors": ["src/jaqmc/geometry/pbc.py:build_distance_fn", "src/jaqmc/geometry/pbc.py:get_symmetry_lat"]}
{"id": "C58", "title": "The Ewald energy has the symmetries of the crystal", "statement": "The electrostatic energy of a configuration is the Ewald formula; it is unchanged when all particles are translated together, when particles are relabelled, and when any particle is replaced by a periodic image.", "quantifier": "every lattice, cut-offs, number of particles, positions and charges", "why_tests_cant": "Real domain and any number of particles.", "anchors": ["src/jaqmc/estimator/ewald.py:EwaldSum.energy"]}
{"id": "C59", "title": "Charged systems can be initialised", "statement": "For every possible combination of net charge and total spin, walkers can be initialised without the user giving per-atom hints.", "quantifier": "every list of atoms, net charge, spin and random choices", "why_tests_cant": "All systems.", "anchors": ["src/jaqmc/utils/atomic/initialization.py:distribute_spins", "src/jaqmc/utils/atomic/atomic_system.py:AtomicSystemConfig.electron_spins"]}
{"id": "C60", "title": "Walkers start with the right electrons near the right atoms", "statement": "Every initial walker has the requested number of electrons, spin-up ones first; each atom starts with the up and down electrons assigned to it; in a supercell each copy of an atom starts with the same occupation.", "quantifier": "every list of atoms, hints, totals, supercell sizes", "why_tests_cant": "All systems and sizes.", "anchors": ["src/jaqmc/utils/atomic/initialization.py:initialize_electrons_gaussian", "src/jaqmc/app/solid/data.py:data_init"]}
{"id": "C61", "title": "One process writes the statistics", "statement": "In a run with several processes, each statistics row is written once to every configured writer, by the master process only.", "quantifier": "every number of processes, list of writers, step and row", "why_tests_cant": "Any number of processes and writers.", "anchors": ["src/jaqmc/writer/base.py:Writers"]}
{"id": "C62", "title": "Molecule and crystal wavefunctions are antisymmetric", "statement": "Exchanging two electrons of the same spin flips the sign of the wavefunction and leaves its modulus unchanged, for FermiNet, Psiformer and LapNet (with or without Jastrow factor) and for the solid wavefunction; more generally any relabelling within the spin groups multiplies it by the sign of the relabelling.", "quantifier": "every parameter value, network size, number of electrons, atoms, determinants, envelope kind and configuration", "why_tests_cant": "Real-valued parameters and positions, any network size and any permutation.", "anchors": ["src/jaqmc/app/molecule/wavefunction/ferminet.py", "src/jaqmc/app/molecule/wavefunction/psiformer.py", "src/jaqmc/app/molecule/wavefunction/lapnet.py", "src/jaqmc/app/solid/wavefunction.py:SolidWavefunction"]}
{"id": "C63", "title": "The reported log-wavefunction is that of the sum of determinants", "statement": "The sign and logarithm reported by the determinant layer are those of the sum of the determinants of the given matrices, whatever their magnitudes: -inf and not NaN where the sum vanishes; a Jastrow factor J multiplies it by exp(J).", "quantifier": "every number and size of matrices, real and complex entries", "why_tests_cant": "Real matrices of any size, including singular ones.", "anchors": ["src/jaqmc/wavefunction/output/logdet.py:LogDet"]}
{"id": "C64", "title": "Molecular wavefunctions do not depend on the origin", "statement": "Moving all electrons and all nuclei of a molecule by the same vector changes no output of the wavefunction.", "quantifier": "every parameter value, network, configuration and translation", "why_tests_cant": "Real-valued positions and parameters.", "anchors": ["src/jaqmc/wavefunction/input/atomic.py", "src/jaqmc/app/molecule/wavefunction"]}
{"id": "C65", "title": "Crystal wavefunctions satisfy twisted boundary conditions", "statement": "Moving one electron of a solid by a simulation-cell vector multiplies the wavefunction by the twist phase common to all its wave vectors; moving all electrons by a primitive-cell vector multiplies it by the phase of the total crystal momentum.", "quantifier": "every cell, supercell, parameter value, configuration and lattice vector", "why_tests_cant": "Real-valued positions, any lattice vector.", "anchors": ["src/jaqmc/app/solid/wavefunction.py:SolidWavefunction", "src/jaqmc/wavefunction/input/atomic.py:SolidFeatures"]}
{"id": "C66", "title": "Wavefunctions on the sphere are antisymmetric", "statement": "Exchanging two electrons of the same spin on the Haldane sphere flips the sign of the wavefunction, for MHPO with any flux attachment, for the Laughlin state and for free electrons; free electrons occupy different states, filling the Landau levels from below.", "quantifier": "every parameter value, number of electrons, flux and configuration", "why_tests_cant": "Real-valued configurations and parameters, any flux.", "anchors": ["src/jaqmc/app/hall/wavefunction/mhpo.py:MHPO", "src/jaqmc/app/hall/wavefunction/laughlin.py:Laughlin", "src/jaqmc/app/hall/wavefunction/free.py:Free"]}
{"id": "C67", "title": "Wavefunctions on the sphere carry the configured flux", "statement": "Each electron sees the configured number of flux quanta: at the poles, which are single points, the wavefunctions for different azimuths differ by the gauge phase of that flux, and a full turn multiplies the wavefunction by (-1)^flux.", "quantifier": "every flux, flux attachment, number of electrons, parameter value and configuration", "why_tests_cant": "All fluxes and electron numbers; the default options hide the failure.", "anchors": ["src/jaqmc/app/hall/wavefunction/mhpo.py:MHPO", "src/jaqmc/app/hall/wavefunction/laughlin.py:Laughlin", "src/jaqmc/app/hall/wavefunction/free.py:make_monopole_harm"]}
{"id": "C68", "title": "The local kinetic energy is that of the wavefunction", "statement": "In every Laplacian mode the Euclidean kinetic energy reported for a walker is -1/2 (Laplacian of psi) / psi for psi = exp(log psi) (with the sign for real wavefunctions), and the modes agree.", "quantifier": "every twice differentiable real or complex wavefunction, configuration and mode", "why_tests_cant": "All functions and points; finite differences only sample.", "anchors": ["src/jaqmc/estimator/kinetic/euclidean.py:EuclideanKinetic", "src/jaqmc/estimator/kinetic/_common.py", "src/jaqmc/utils/func_transform.py"]}
{"id": "C69", "title": "The kinetic energy on the sphere is that of a charge in a monopole field", "statement": "On the Haldane sphere the reported kinetic energy is (sum over electrons of the covariant |Lambda|^2 applied to psi) / (2 R^2 psi); for every state in the lowest Landau level, the Laughlin state among them, it is N Q / (2 R^2) at every configuration.", "quantifier": "every twice differentiable wavefunction, monopole strength, radius, mode and configuration away from the poles", "why_tests_cant": "All functions and points; the constant energy of the lowest Landau level has to hold at every configuration.", "anchors": ["src/jaqmc/estimator/kinetic/spherical.py:SphericalKinetic"]}
{"id": "C70", "title": "The angular momentum statistics are those of the wavefunction", "statement": "angular_momentum_z, angular_momentum_z_square and angular_momentum_square are the real parts of L_z psi/psi, L_z^2 psi/psi and L^2 psi/psi for the total angular momentum in the monopole field, the same in all modes; for the Laughlin state all are zero at every configuration.", "quantifier": "every twice differentiable wavefunction, monopole strength, mode and configuration away from the poles", "why_tests_cant": "All functions and points, and the agreement of two different derivations of L^2.", "anchors": ["src/jaqmc/estimator/kinetic/spherical.py:SphericalKinetic", "src/jaqmc/estimator/kinetic/spherical.py:_angular_momentum_square"]}
{"id": "C71", "title": "Spherical quadratures are exact to their degree", "statement": "Each supported rule (octahedron_6/18/26/50, icosahedron_12/32) integrates every polynomial up to its documented degree (3, 5, 7, 11; 5, 9) exactly over the unit sphere, in every orientation the random rotation can produce; other identifiers are refused; the rotation is proper and sends the pole to a uniformly distributed point.", "quantifier": "every polynomial up to the degree and every pair of uniform draws", "why_tests_cant": "Infinitely many polynomials and rotations.", "anchors": ["src/jaqmc/estimator/ecp/quadrature.py"]}
{"id": "C72", "title": "The random rotation makes the quadrature unbiased", "statement": "The expectation of the quadrature over the random rotation is the integral over the sphere, whatever the integrand.", "quantifier": "every integrand", "why_tests_cant": "An average over a continuum of rotations; the failure is an integral that differs in the third digit.", "anchors": ["src/jaqmc/estimator/ecp/quadrature.py:Quadrature.sample_rotated_points"]}
{"id": "C73", "title": "The effective core potential energy is that of the given tables", "statement": "The reported energy is the sum over electrons and atoms of the local radial potential plus, over each electron's nearest max_core atoms and all angular momenta, the radial potential times the angular projection of the wavefunction ratio; in a crystal the ratio includes the Bloch phase of the twist. Tables with angular momentum above 2 and systems without a potential are refused.", "quantifier": "every table, number of atoms and electrons, configuration and wavefunction that is a polynomial within reach of the rule on the spheres concerned", "why_tests_cant": "All wavefunctions, tables, lattices and rotations.", "anchors": ["src/jaqmc/estimator/ecp/estimator.py:ECPEnergy", "src/jaqmc/estimator/ecp/nonlocal_integral.py"]}
{"id": "C74", "title": "The spin estimator is the local value of the total spin", "statement": "The reported spin:s2 times the wavefunction is S^2 (from the Pauli matrices of all electrons) applied to the antisymmetric many-electron function whose component with the first n_up electrons up is the wavefunction; for a spin eigenfunction it is S(S+1) at every configuration.", "quantifier": "every number of up and down electrons, antisymmetric function and configuration", "why_tests_cant": "All electron numbers and wavefunctions, real or complex.", "anchors": ["src/jaqmc/estimator/spin.py:SpinSquared"]}
{"id": "C75", "title": "The Jastrow factor has Kato's cusp", "statement": "When two electrons meet, the slope of the Jastrow exponent jumps by twice 1/4 for equal and twice 1/2 for opposite spins, and the factor is bounded.", "quantifier": "every parameter value, number of electrons, configuration and direction", "why_tests_cant": "Limits at coincidence points for all configurations and directions.", "anchors": ["src/jaqmc/wavefunction/jastrow.py:SimpleEEJastrow"]}
{"id": "C76", "title": "Stochastic reconfiguration takes the documented step", "statement": "In every state the SR optimizer can reach, the preconditioned gradient is the documented robust SR step with SPRING momentum and MARCH metric: with S the Fisher matrix of the clipped centred scores, M the metric, p the momentum, lambda the damping and gamma the documented weak-mode factor, delta = A^-1((S + gamma lambda^2 M)A^-1 g + lambda M p), A = S + lambda M; standard SR solves A delta = g + lambda M p. The accumulated variances never become negative.", "quantifier": "every history, option, gradient, number of samples, parameters and devices, real or complex scores", "why_tests_cant": "An identity between a sample-space and a parameter-space solve, for all matrices and histories.", "anchors": ["src/jaqmc/optimizer/sr/jasr.py:scale_by_fisher_inverse", "src/jaqmc/optimizer/sr/jasr.py:lift_null_space", "src/jaqmc/optimizer/sr/sr.py:SROptimizer"]}
{"id": "C77", "title": "SR updates have the prescribed size and go downhill", "statement": "The update never exceeds max_norm nor the learning rate times the preconditioned gradient; with max_norm fixed its norm is the learning rate up to the eps factor; without momentum its scalar product with the gradient is negative.", "quantifier": "every history, gradient, schedule and batch", "why_tests_cant": "All gradients and batches.", "anchors": ["src/jaqmc/optimizer/sr/jasr.py:scale_by_constrained_norm", "src/jaqmc/optimizer/sr/jasr.py:robust_sr"]}
{"id": "C78", "title": "The SR update does not depend on how the work is split", "statement": "Splitting the same samples over another number of devices, in another order, or the Gram matrix into another number of chunks changes neither the update nor the new optimizer state (without adaptive damping).", "quantifier": "every number of devices, samples, parameters and chunks, including numbers that do not divide each other", "why_tests_cant": "All combinations of sizes.", "anchors": ["src/jaqmc/optimizer/sr/jasr.py:calc_gram_matrix", "src/jaqmc/optimizer/sr/jasr.py:calc_gram_matrix_chunked"]}
{"id": "C79", "title": "max_cond_num bounds the condition number", "statement": "With max_cond_num set, the matrix that is factorized has at most this condition number, and the damping is not raised beyond what that requires.", "quantifier": "every score matrix and prescribed number", "why_tests_cant": "All matrices; the estimate is an iteration from a fixed vector.", "anchors": ["src/jaqmc/optimizer/sr/jasr.py:estimate_required_damping", "src/jaqmc/optimizer/sr/jasr.py:power_iteration"]}
{"id": "C80", "title": "DMC metrics and rollback follow one trajectory", "statement": "After any history of completed steps, rejected outliers, failures with rollback, kills and restarts, the metric file holds exactly one row per step of the trajectory in force, in order and without gap; a rollback or restart to step r continues with exactly the state after step r of that trajectory; a failure is recoverable once the process has worked through two blocks, and no process is rolled back more than max_restore_nums times.", "quantifier": "every history of events, block size, restore limit and moment at which the metric file happens to be flushed", "why_tests_cant": "Arbitrary interleavings of failures, rollbacks and kills.", "anchors": ["src/jaqmc_legacy/dmc/dmc.py:run", "src/jaqmc_legacy/dmc/dmc.py:recovery_wrapper", "src/jaqmc_legacy/dmc/ckpt_metric_manager.py:CkptMetricManager", "src/jaqmc_legacy/dmc/metric_manager.py:MetricManager"]}
{"id": "C81", "title": "DMC data files are snapshots at most two blocks old", "statement": "Every complete data file in the save path holds the state and all metric rows of the trajectory in force at a multiple of the block size, and is committed only after the following block; a process killed between operations resumes at most two blocks back; a normally ended run leaves the data of the last block multiple not above num_steps, or later.", "quantifier": "every history, block size, prefix and crash point", "why_tests_cant": "All crash points and histories.", "anchors": ["src/jaqmc_legacy/dmc/ckpt_metric_manager.py:CkptMetricManager", "src/jaqmc_legacy/dmc/dmc.py:run"]}
{"id": "C82", "title": "A DMC run can be restarted after a crash at any point", "statement": "Whatever the moment a DMC process is killed, a new process finds usable data or starts afresh.", "quantifier": "every history and crash point, including the middle of a file copy", "why_tests_cant": "All crash points.", "anchors": ["src/jaqmc_legacy/dmc/ckpt_metric_manager.py:CkptMetricManager.setup", "src/jaqmc_legacy/dmc/ckpt_metric_manager.py:CkptMetricManager.load_restore_data", "src/jaqmc_legacy/dmc/storage_handler.py:LocalStorageHandler"]}
{"id": "C83", "title": "Cleaning the DMC save path removes old data only", "statement": "clean_up_save_path removes exactly the data files that are neither among the newest ones to keep nor at a multiple of keep_every_N_steps, and never the one a restart would use.", "quantifier": "every directory listing and setting", "why_tests_cant": "All listings.", "anchors": ["src/jaqmc_legacy/dmc/ckpt_metric_manager.py:CkptMetricManager.clean_up_save_path"]}
{"id": "C84", "title": "Variable-size branching is unbiased", "statement": "The variable-size branching step of the legacy DMC keeps the total weight exactly for all draws, keeps every weighted sum over the population on average over the draws, makes only copies of existing walkers, splits exactly the walkers above max_thres when none is small, and always returns a population.", "quantifier": "every population size, weights, thresholds and draws", "why_tests_cant": "An average over a continuum of draws, all weight vectors.", "anchors": ["src/jaqmc_legacy/dmc/branch.py:branch"]}
{"id": "C85", "title": "Fixed-size branching is unbiased", "statement": "The fixed-size branching step keeps the number of walkers and the total weight, keeps every weighted sum on average over the draws, makes only copies of existing walkers and does nothing when no weight is outside the thresholds.", "quantifier": "every population size, weights, thresholds and draws", "why_tests_cant": "All weight vectors including ties, all draws including those on a threshold.", "anchors": ["src/jaqmc_legacy/dmc/branch_fix_size.py:branch"]}
{"id": "C86", "title": "The mixed estimator corrects for the population control", "statement": "After any number of iterations the mixed energy estimator is the average over the last mixed_estimator_num_steps iterations of the iteration energies, weighted by the total weight times exp(-tau * sum of the last offsets); it lies between the smallest and largest of these energies, and with constant offsets it is the plain weighted mean.", "quantifier": "every number of calls, window sizes, energies, weights, offsets and time steps", "why_tests_cant": "All histories; the log-sum rescaling cancels only algebraically.", "anchors": ["src/jaqmc_legacy/dmc/energy_estimator.py:MixedEstimatorCalculator"]}
{"id": "C87", "title": "The effective time step is the acceptance-weighted one", "statement": "The effective time step is the time step times the ratio of accepted to proposed mean square displacement over all walkers and updates so far (weighted by walker weight), lies in [0, tau] and is tau when nothing was proposed; electron-by-electron it is the weighted mean of the walkers' effective time steps.", "quantifier": "every history of updates, weights, acceptance rates and displacements", "why_tests_cant": "All histories of incremental updates.", "anchors": ["src/jaqmc_legacy/dmc/effective_time_step_calculator.py:EffectiveTimeStepCalculator"]}
{"id": "C88", "title": "Weights and population control are bounded and drive the population to its target", "statement": "One move multiplies a weight by a positive factor bounded by the energy cutoff; the offset is below the estimator exactly when the population is above its target; the common factor after an update is (target/total)^(amplitude*tau); an outlier is exactly an energy deviating from the anchor by more than threshold*|anchor|; the average energy lies in the clip range.", "quantifier": "every weight, energy, velocity, cutoff, target and total", "why_tests_cant": "All real inputs, both signs of the energies.", "anchors": ["src/jaqmc_legacy/dmc/dmc.py:calc_branch_val", "src/jaqmc_legacy/dmc/dmc.py:update_energy_offset", "src/jaqmc_legacy/dmc/dmc.py:average_energy"]}
{"id": "C89", "title": "DMC moves satisfy detailed balance and the fixed-node constraint", "statement": "For every two configurations the accepted flow under psi^2 equals the flow back (walker and electron-by-electron moves, age at most 50); whatever the draws no walker ever changes the sign of the wavefunction or lands on a node; the drift velocity is shortened, a|v|^2 tau <= 2, and the drift never crosses the nearest nucleus; a walker's age is one after an accepted move and grows by one with each rejected one, and its acceptance grows with age to 1.", "quantifier": "every system, wavefunction, velocity field, pair of configurations, history of moves and draws", "why_tests_cant": "All wavefunctions and histories; a continuum of configurations.", "anchors": ["src/jaqmc_legacy/dmc/position_update.py", "src/jaqmc_legacy/dmc/dmc.py:do_run_dmc_single_walker", "src/jaqmc_legacy/dmc/dmc.py:do_run_dmc_single_walker_ebye"]}
{"id": "C90", "title": "Padding walkers to the devices leaves no trace", "statement": "A DMC step returns for every walker, in order, what the walker function gives for that walker with its own key, whatever the number of devices; the padded number exceeds the least possible one by at most a tenth.", "quantifier": "every number of walkers and devices with at least nine walkers per device", "why_tests_cant": "All pairs of numbers.", "anchors": ["src/jaqmc_legacy/dmc/dmc.py:get_to_pad_num", "src/jaqmc_legacy/dmc/dmc.py:make_step"]}
{"id": "C91", "title": "DMC proposals have the density used in the acceptance rate", "statement": "The position proposed for an electron (drift, then Gaussian diffusion or an exponential cloud about the nucleus) is distributed with exactly the density G whose logarithm enters the acceptance rate, and G integrates to one.", "quantifier": "every system, position, velocity, positive time step and non-negative observable", "why_tests_cant": "Equality of probability distributions on space.", "anchors": ["src/jaqmc_legacy/dmc/position_update.py:do_diffusion", "src/jaqmc_legacy/dmc/position_update.py:calc_G_log"]}
{"id": "C92", "title": "The pseudo-Hamiltonian kinetic energy is the operator it stands for", "statement": "For every real wavefunction, both backends return -1/2 Laplacian(psi)/psi plus (l2(r)/r) L^2 psi/psi summed over electrons and pseudo-Hamiltonian atoms (L the angular momentum about the atom); they agree off the atoms; the result is NaN exactly when the inverse mass tensor of some electron is not positive definite (one atom: l2(r) r <= -1/2). The standard backend is right for complex wavefunctions too.", "quantifier": "every number of electrons and atoms, position, table values and twice differentiable log psi", "why_tests_cant": "All wavefunctions and configurations; derivative identities.", "anchors": ["src/jaqmc/estimator/ph/_standard.py:compute_derivative_energy", "src/jaqmc/estimator/ph/_forward_laplacian.py:compute_derivative_energy"]}
{"id": "C93", "title": "Pseudo-Hamiltonian tables reproduce the semilocal potential", "statement": "The local and L^2 tables are recovered exactly from channels of the form loc + l(l+1) L2, are interpolated linearly and extended by the last value, and energy:kinetic + energy:ph + the bare attraction give -1/2 Laplacian plus the tabulated channel l on every eigenfunction of angular momentum l. An empty request, an element without tables or a request absent from the system is refused; otherwise exactly the requested atoms are treated.", "quantifier": "every table, grid size, system, configuration and request", "why_tests_cant": "All tables, radii and systems.", "anchors": ["src/jaqmc/estimator/ph/data.py:_reconstruct_paper_ph_data", "src/jaqmc/estimator/ph/estimator.py:PHEnergy"]}
{"id": "C94", "title": "The reported gradient is, on average, the derivative of the energy", "statement": "With walkers drawn independently from |psi|^2 and no clipping, for every symmetric Hamiltonian and every differentiable family of wavefunctions, loss averages to the variational energy and each gradient component averages to (1 - 1/N) times the derivative of the energy plus (4/N) <Im d log psi . Im E_L>, N the total number of walkers over all devices (the second term is zero for real log-derivatives, so the average gradient vanishes exactly at stationary points). At an eigenfunction every batch reports exactly its energy and a zero gradient, with every clipping method.", "quantifier": "every measure space, symmetric operator, family of wavefunctions, number of devices and walkers", "why_tests_cant": "A statement about expectations over continuous distributions, for all operators and wavefunctions.", "anchors": ["src/jaqmc/estimator/loss_grad.py:LossAndGrad", "src/jaqmc/utils/clip.py:clip_observable"]}
{"id": "C95", "title": "Density histograms count every electron where it is", "statement": "Each bin of a Cartesian, fractional or spherical density holds exactly the number of electrons, over all devices, steps and walkers, whose coordinates (component along the configured direction; fractional coordinate along the lattice vector; polar angle and azimuth) lie in the cell. In a crystal every electron is counted, and moving one by a lattice vector changes nothing.", "quantifier": "every set of axes, lattice, run and position", "why_tests_cant": "All positions, lattices and axis configurations.", "anchors": ["src/jaqmc/estimator/density/cartesian.py:CartesianDensity", "src/jaqmc/estimator/density/fractional.py:FractionalDensity", "src/jaqmc/estimator/density/spherical.py:SphericalDensity", "src/jaqmc/app/solid/workflow.py"]}
{"id": "C96", "title": "The pair correlation histogram estimates g(theta)", "statement": "On every number of devices, the estimator adds for each pair of electrons the weight 1/sin(theta) of its geodesic angle to the bin containing it, scaled so that, averaged over configurations, bin k holds (2/n^2) times the sum over pairs of the mean of the pair correlation function over that bin; for independent uniform electrons every bin is (n-1)/n per step.", "quantifier": "every number of electrons, bins, steps, walkers, devices, and law of the configurations with a pair density", "why_tests_cant": "Expectations over continuous distributions on the sphere, for every law; every device count.", "anchors": ["src/jaqmc/app/hall/estimator/pair_correlation.py:PairCorrelation", "src/jaqmc/workflow/stage/sampling.py"]}
{"id": "C97", "title": "The one-body reduced density matrix is the right matrix", "statement": "For every wavefunction on the Haldane sphere the value reported for entry (i, j), averaged over walkers from |psi|^2 and over the uniform trial point, is the one-body reduced density matrix in the lowest-level monopole orbitals; the orbitals are orthonormal; for a wavefunction in the lowest Landau level the matrix is Hermitian and its trace is the number of electrons.", "quantifier": "every flux, number of electrons, bounded measurable wavefunction, entry, number of steps and walkers", "why_tests_cant": "Integrals over the sphere for every wavefunction and flux.", "anchors": ["src/jaqmc/app/hall/estimator/one_rdm.py:OneRDM", "src/jaqmc/app/hall/estimator/one_rdm.py:make_monopole_harm"]}
{"id": "C98", "title": "The training objective on the Haldane sphere is the penalised energy", "statement": "In every Laplacian mode and with every radius, interaction strength and penalty, the loss of a walker is the local value of H + lz_penalty (Lz - lz_center)^2 + l2_penalty L^2, H the kinetic energy plus one Coulomb term per pair with the chord distance (unchanged by rotations and by reordering the electrons); it averages to the penalised energy, and the reported gradient averages to the derivative of the penalised energy.", "quantifier": "every configuration, wavefunction, penalty setting and batch", "why_tests_cant": "Differential identities and expectations for every wavefunction.", "anchors": ["src/jaqmc/app/hall/hamiltonian.py:SpherePotential", "src/jaqmc/app/hall/estimator/penalized_loss.py:PenalizedLoss", "src/jaqmc/app/hall/workflow.py:make_estimators"]}
{"id": "C99", "title": "The Hartree-Fock reference is the Slater determinant of Bloch orbitals", "statement": "PeriodicSCF.eval_slater is, for every walker of every batch, the logarithm of the product of the spin-up and spin-down Slater determinants of the first occupied orbitals, each a Bloch function of the primitive cell with the k-point listed for it by get_orbital_kpoints. It changes sign when two equal spins are exchanged, has the twist of the k-points under simulation-cell translations of one electron and total crystal momentum sum of k-points, and has the same boundary conditions as the network the solid workflow builds with those k-points. The truncated lattice sums converge to the exact Bloch sums. MolecularSCF.eval_slater is sign and log of the Slater determinant.", "quantifier": "every cell, list of k-points and images, orbital coefficients and occupations, number of electrons, batch and position", "why_tests_cant": "All positions, translations and calculations.", "anchors": ["src/jaqmc/utils/atomic/scf.py:PeriodicSCF", "src/jaqmc/utils/atomic/scf.py:MolecularSCF", "src/jaqmc/utils/atomic/gto.py:PBCAtomicOrbitalEvaluator"]}
{"id": "C100", "title": "Pretraining samples and minimises what is documented", "statement": "A mixing fraction outside [0, 1] is refused; inside, walkers are sampled from |psi|^(1-f) |Phi|^f (squared). The pretraining loss is non-negative and zero exactly when every orbital matrix of the network equals the Slater matrix of the reference, so at zero loss the network's determinants are the reference determinant; it does not depend on the order of electrons of the same spin.", "quantifier": "every fraction, wavefunction, reference, orbital matrices and number of determinants", "why_tests_cant": "All wavefunctions, references and fractions.", "anchors": ["src/jaqmc/utils/atomic/pretrain.py:make_pretrain_log_amplitude", "src/jaqmc/utils/atomic/pretrain.py:make_pretrain_loss"]}
{"id": "C101", "title": "Gaussian orbitals are contracted Gaussians times real solid harmonics", "statement": "At every point, the origin and the z axis included, AtomicOrbitalEvaluator returns, atom by atom, shell by shell, contraction by contraction and in PySCF's sequence of orders (x, y, z for p shells), the contracted Gaussian times the real solid harmonic of the vector from the atom. The solid harmonics are homogeneous harmonic polynomials of degree l, orthonormal on the unit sphere; omitted weights change a radial function by at most 1e-12 per primitive; Bloch sums of the orbitals converge.", "quantifier": "every molecule, basis with any angular momenta and contractions, and position", "why_tests_cant": "All angular momenta and points; identities between polynomials and integrals over the sphere.", "anchors": ["src/jaqmc/utils/atomic/gto.py:solid_harmonic", "src/jaqmc/utils/atomic/gto.py:AtomicOrbitalEvaluator", "src/jaqmc/utils/atomic/gto.py:cart2sph"]}
{"id": "C102", "title": "The legacy energy is the mean over the walkers that count", "statement": "The loss of make_vmc_loss is the mean and the reported variance the variance of the local energies that are real numbers, over all devices, without those farther from the mean than the outlier width times the mean absolute deviation if outliers are removed; it does not depend on how the walkers are distributed over devices or ordered, nor on el_partition; with a width above 1 some walker remains unless all energies are equal.", "quantifier": "every batch, distribution over devices, NaN or infinite energies, outlier width and partition", "why_tests_cant": "All batches and distributions over devices.", "anchors": ["src/jaqmc_legacy/loss/vmc.py:make_vmc_loss", "src/jaqmc_legacy/loss/utils.py:pmean_with_mask"]}
{"id": "C103", "title": "The legacy energy gradient is the covariance of energy and log-derivative", "statement": "The gradient of the legacy energy loss, averaged over devices, is the covariance of local energy and log-derivative over the walkers that count, with energies clipped around the median if clipping is on.", "quantifier": "every batch, clip width and outlier setting", "why_tests_cant": "All batches and settings.", "anchors": ["src/jaqmc_legacy/loss/vmc.py:total_energy_jvp"]}
{"id": "C104", "title": "Legacy spin penalties measure the total spin", "statement": "The local value of S^2 computed by spin_penalty is that of the total spin operator for every antisymmetric wavefunction (agreeing with the estimator of C74); the penalty plus the minimal value s(s+1); all three schemata have the same expectation over psi^2; the penalty vanishes for the states of minimal spin; the swapped electron cycles through all minority electrons; a fully polarised system raises.", "quantifier": "every number of electrons, wavefunction and configuration", "why_tests_cant": "All wavefunctions and electron numbers.", "anchors": ["src/jaqmc_legacy/loss/spin_penalty.py:spin_square", "src/jaqmc_legacy/loss/spin_penalty.py:make_spin_penalty_helper"]}
{"id": "C105", "title": "The legacy spin estimate is the mean of the kept local values", "statement": "The reported spin estimate is s(s+1) plus the mean over the finite local values within the outlier bounds, and the step of the state advances so that the swapped electron changes.", "quantifier": "every batch, configuration and outlier setting", "why_tests_cant": "All batches and settings.", "anchors": ["src/jaqmc_legacy/loss/spin_penalty.py:fn_spin_penalty", "src/jaqmc_legacy/loss/spin_penalty.py:local_value_mask"]}
{"id": "C106", "title": "The legacy spin penalty's gradient", "statement": "The gradient the spin penalty adds is weight * (2 cov(P, d log psi) + mean dP) * mean P over the walkers with finite values, an infinite derivative removing its walker for that parameter only; with expectations for means this is half the derivative of weight times the squared expected penalty.", "quantifier": "every batch; every differentiable family of wavefunctions and local values", "why_tests_cant": "Derivatives of integrals for every family; all batches.", "anchors": ["src/jaqmc_legacy/loss/spin_penalty.py:fn_spin_grad", "src/jaqmc_legacy/loss/spin_penalty.py:self_adjoint_estimator_grad"]}
{"id": "C107", "title": "The legacy overlap penalty keeps states apart", "statement": "The overlap reported for a target is the mean of psi/phi over the target's walkers times the mean of phi/psi over the current ones; it does not depend on the normalisation of either and is 1 for proportional states; its expectation is the squared normalised overlap, between 0 and 1, zero exactly for orthogonal states. The gradient is the sum over targets of weight times half the derivative of the squared overlap.", "quantifier": "every pair of wavefunctions, batch, distribution over devices and number of targets", "why_tests_cant": "All wavefunctions, batches and targets; integrals.", "anchors": ["src/jaqmc_legacy/loss/overlap_penalty.py:fn_overlap_penalty", "src/jaqmc_legacy/loss/overlap_penalty.py:fn_overlap_grad"]}
{"id": "C108", "title": "The legacy total loss is energy plus penalties", "statement": "make_loss adds the energy and the selected penalties in a fixed order, each with its own key and state; new states and auxiliary data come back under the component's name; the reported loss is the energy whichever penalties are present; the gradient is the sum of the gradients, which in expectation is half the derivative of energy + weight * penalty^2 + sum of weight * overlap. Every keyword argument reaches the one component that names it; a missing one is an error.", "quantifier": "every set of components, state, key, keyword arguments and family of wavefunctions", "why_tests_cant": "All histories of components and arguments.", "anchors": ["src/jaqmc_legacy/loss/factory.py:make_loss", "src/jaqmc_legacy/loss/factory.py:_get_relevant_kwargs"]}
{"id": "C109", "title": "The local energy of a molecule is the Hamiltonian applied to the wavefunction", "statement": "For every accepted molecule configuration each atom gets the treatment the user asked for by element (all-electron, effective core potential, pseudo-Hamiltonian), its core electrons are taken off its charge, exactly the atoms so treated enter the corresponding estimator, each once, and total_energy times psi is -1/2 Laplacian psi plus the pseudo-Hamiltonian operators, plus every Coulomb pair of electrons and (screened) nuclei once, plus the effective core energy. The Coulomb energy does not depend on labels or frame. Inconsistent configurations are refused.", "quantifier": "every list of atoms, pp setting, unit, charge override, number of electrons, smooth wavefunction and configuration without coincident particles", "why_tests_cant": "All molecules, wavefunctions and positions.", "anchors": ["src/jaqmc/app/molecule/hamiltonian.py:potential_energy", "src/jaqmc/app/molecule/workflow.py:make_estimators", "src/jaqmc/app/molecule/config/base.py:MoleculeConfig", "src/jaqmc/utils/atomic/atom.py:Atom", "src/jaqmc/utils/atomic/atomic_system.py:AtomicSystemConfig"]}
{"id": "C110", "title": "The hydrogen application finds the hydrogen atom", "statement": "The local energy of the one-parameter wavefunction is -alpha^2/2 - (1+alpha)/r at every point, constant exactly for alpha = -1, where it is -1/2; over psi^2 the energy is alpha^2/2 + alpha, at least -1/2 with equality only at -1, and the covariance gradient used in training is in expectation its derivative 1 + alpha. Initial walkers are at the drawn distance.", "quantifier": "every alpha (bound states for the expectations), point and Hessian mode", "why_tests_cant": "Integrals over all of space; all parameters.", "anchors": ["src/jaqmc/app/hydrogen_atom.py:HydrogenAtom", "src/jaqmc/app/hydrogen_atom.py:potential_energy", "src/jaqmc/app/hydrogen_atom.py:data_init"]}
{"id": "C111", "title": "Geometry presets build the documented geometry", "statement": "An accepted cell of lattice parameters has the given lengths and angles (right angles rounded at 1e-12 degrees), is right-handed with the expected volume, and exactly the angle triples spanning a cell are accepted. Rock salt is congruent to the face-centred cubic crystal of that constant, with the nearest unlike atoms at half the constant; the chain puts an atom at every multiple of the bond length; a diatomic formula is parsed as its two symbols and the atoms are at the bond length, centred; alkanes are C2nH4n+2 with all bonds 1.55 and 1.09 angstrom and tetrahedral angles, and spins adding up to s_z = 0.", "quantifier": "all lengths, angles, lattice constants, formulas, numbers of units and both units", "why_tests_cant": "Real geometry for all parameters and all chain lengths.", "anchors": ["src/jaqmc/app/solid/config/base.py:LatticeParams", "src/jaqmc/app/solid/config/rock_salt.py:rock_salt_config", "src/jaqmc/app/solid/config/two_atom_chain.py:two_atom_chain", "src/jaqmc/app/molecule/config/diatomic.py:diatomic_config", "src/jaqmc/app/molecule/config/alkane.py:alkane_config"]}
{"id": "C112", "title": "Local energy of a crystal", "statement": "The simulation cell handed to the estimators is the user's crystal: every atom of the infinite crystal appears exactly once per simulation cell, with its element and its charge after core removal, positions, charges and symbols in the same order. Electron numbers follow from the charges, total charge and s_z. The total energy of a walker times psi is -1/2 Laplacian psi plus the Ewald energy of these particles plus the effective core energy of exactly the copies of the atoms the user asked it for; pseudo-Hamiltonian elements and unknown potentials are refused. The k-points of the reference carry the requested twist, and the network built on them satisfies the boundary conditions the effective core estimator assumes.", "quantifier": "every lattice, basis, supercell matrix, twist, walker and complex wavefunction twice differentiable there", "why_tests_cant": "Equality of functions, for every supercell and configuration.", "anchors": ["src/jaqmc/app/solid/hamiltonian.py:PotentialEnergy", "src/jaqmc/app/solid/workflow.py:make_estimators", "src/jaqmc/app/solid/workflow.py:make_scf", "src/jaqmc/app/solid/data.py:data_init", "src/jaqmc/app/solid/config/base.py:SolidConfig"]}
{"id": "C113", "title": "Legacy local energy and pseudo-Hamiltonian", "statement": "Whichever way the legacy package computes the kinetic energy (Hessian, scan, fori loop, any number of chunks dividing the coordinates, forward Laplacian), the result times psi is -1/2 Laplacian psi; a number of chunks that does not divide is refused. The potential is the Coulomb energy with every pair counted once. The pseudo-Hamiltonian energy times psi is -1/2 Laplacian psi + sum v_L2 L^2 psi + sum v_loc psi with the radial functions of the tables, and is a number exactly when the inverse mass tensors are positive definite; the table loader recovers the local and L^2 parts of a pseudo-Hamiltonian, the same ones the new package finds.", "quantifier": "every number of electrons and atoms, every position without coincidences, every wavefunction twice differentiable there, all settings and tables", "why_tests_cant": "Equality of functions for all wavefunctions and all chunkings.", "anchors": ["src/jaqmc_legacy/pp/hamiltonian.py:local_kinetic_energy", "src/jaqmc_legacy/pp/hamiltonian.py:potential_energy", "src/jaqmc_legacy/pp/ph/hamiltonian.py", "src/jaqmc_legacy/pp/ph/data.py:parse_TM_xml"]}
{"id": "C114", "title": "Legacy effective core energy", "statement": "For tables listing the angular momenta -1, 0, 1, ... in order, the effective core energy of the legacy package is the sum over electrons and atoms of the local potential plus, over electrons, their nearest max_core atoms and the angular momenta, of the radial potential times the projection of the wavefunction, in every random frame, when the wavefunction is on the spheres concerned a polynomial within reach of the rule. Grouping by element loses and repeats no atom. Unknown rules, tables without nonlocal channel, with more than eight, or with a channel without terms are refused.", "quantifier": "every molecule, table, number of channels, rule, rotation, walker and wavefunction of the class", "why_tests_cant": "Integrals over spheres for all wavefunctions and rotations.", "anchors": ["src/jaqmc_legacy/pp/hamiltonian.py:non_local_energy", "src/jaqmc_legacy/pp/ecp_potential.py:numerical_integral_for_loop", "src/jaqmc_legacy/pp/special.py:legendre", "src/jaqmc_legacy/pp/quadrature.py"]}
{"id": "C115", "title": "Legacy routing of pseudopotentials and total energy", "statement": "An atom whose element is chosen for a pseudo-Hamiltonian contributes only through it, an atom of a hybrid element through both, any other atom with a table through its effective core potential, each exactly once when the two choices are disjoint; by default all elements with data are pseudo-Hamiltonian and none is hybrid; a chosen element without data is refused. The total energy times psi is the documented Hamiltonian applied to psi. A supplied local energy is used only without pseudo-Hamiltonian atoms, and a pseudo-Hamiltonian without the forward Laplacian is refused.", "quantifier": "every molecule, choice of elements, data and walker", "why_tests_cant": "All combinations of choices and an equality of functions.", "anchors": ["src/jaqmc_legacy/pp/hamiltonian.py:pp_energy", "src/jaqmc_legacy/pp/hamiltonian.py:ecp_energy_optim", "src/jaqmc_legacy/pp/hamiltonian.py:merge_ph_hph_info", "src/jaqmc_legacy/pp/ph/data.py:gen_ph_info"]}
{"id": "C116", "title": "KFAC statistics of dense layers", "statement": "For every recognised dense layer, with any number and sizes of leading, input and output axes, the two statistics are the means over all walkers and positions of products of two inputs (a constant 1 after the last for the bias) and of the real part of conjugated times plain derivatives of log psi with respect to the outputs. They are symmetric and positive semidefinite. When positions are uncorrelated and inputs independent of derivatives, their Kronecker product times the number of positions is exactly the block of Re S of stochastic reconfiguration. Batches and shapes that do not match are refused.", "quantifier": "every batch, shape, complex derivative and weight", "why_tests_cant": "All shapes and batches; an identity between the estimate and the exact matrix.", "anchors": ["src/jaqmc/optimizer/kfac/curvature_blocks.py:RepeatedDenseBlock", "src/jaqmc/optimizer/kfac/curvature_blocks.py:DenseTwoKroneckerFactored", "src/jaqmc/optimizer/kfac/tag_registration.py:make_graph_patterns"]}
{"id": "C117", "title": "KFAC diagonal blocks and moving averages", "statement": "Scale and shift parameters are given the exact diagonal of Re S of the batch. After every history of batches a curvature factor is the weighted average of the statistics of all steps, with the weight of a step times the decay of all later ones, and stays symmetric and positive semidefinite. The estimate for parameters of unknown structure is the diagonal of Re S.", "quantifier": "every batch, history of updates and non-negative decay", "why_tests_cant": "All histories of updates.", "anchors": ["src/jaqmc/optimizer/kfac/curvature_blocks.py:ScaleAndShiftDiagonal", "src/jaqmc/optimizer/kfac/curvature_blocks.py:NaiveDiagonal", "src/jaqmc/optimizer/kfac/curvature_blocks.py:_update_factor"]}
{"id": "C118", "title": "KFAC step for complex wavefunctions", "statement": "The patched vector-Jacobian product of a function of real parameters with complex outputs is the covector times the complex Jacobian; the global function is restored after every call, also a failing one. update before init is refused. Every step, whatever the learning rate, has squared curvature norm at most norm_constraint, points along the negative preconditioned gradient, and is the full step when that satisfies the constraint.", "quantifier": "every differentiable function, covector, gradient, positive definite curvature, learning rate and constraint", "why_tests_cant": "Derivatives of arbitrary functions; all gradients and curvatures.", "anchors": ["src/jaqmc/optimizer/kfac/complex_support.py:vjp_rc_with_aux", "src/jaqmc/optimizer/kfac/complex_support.py:patched_layer_tag_vjp", "src/jaqmc/optimizer/kfac/kfac.py:KFACOptimizer"]}
{"id": "C119", "title": "LapNet attention: handwritten Laplacian rule", "statement": "The handwritten Forward Laplacian rule of LapNet attention answers exactly for sparse queries and keys whose support is that of their own electron, and otherwise hands over to the automatic derivation (always for one electron). Its answer is the value, every derivative and the Laplacian of the attention values, for every number of electrons, coordinates, heads and features, and every kind of value argument.", "quantifier": "every twice differentiable q, k, v, every point, number of electrons, coordinates, heads and features", "why_tests_cant": "Derivatives of arbitrary functions and all sizes; a test compares at sample points.", "anchors": ["src/jaqmc/wavefunction/backbone/lapnet/_attention.py:lapnet_sparse_attention", "src/jaqmc/wavefunction/backbone/lapnet/_attention.py:_lapnet_sparse_attention_local1_rule", "src/jaqmc/wavefunction/backbone/lapnet/_attention.py:_attention_quotient", "src/jaqmc/wavefunction/backbone/lapnet/_attention.py:_supports_local1_attention"]}
{"id": "C120", "title": "Functions with a handwritten Laplacian rule", "statement": "A function decorated with custom_laplacian is the plain function outside forward_laplacian, keyword arguments included; inside, keyword arguments are refused by name, use without a rule is refused, and the rule last registered for this function (never another's) is used. However the function is nested in vmap, a rule that is right for the function gives value, derivatives and Laplacian of the mapped function; a rule that declines hands the mapped function and the same arguments to the automatic derivation. The tracing flag is restored after any exception.", "quantifier": "every function, rule, nesting of vmap, axes and shapes; every sequence of decorations and registrations", "why_tests_cant": "All nestings, shapes and histories of registration.", "anchors": ["src/jaqmc/laplacian/custom_rules.py:custom_laplacian", "src/jaqmc/laplacian/primitives/custom_laplacian.py:_replay_custom_rule_vmaps", "src/jaqmc/laplacian/primitives/custom_laplacian.py:_custom_laplacian_batch", "src/jaqmc/laplacian/primitives/custom_laplacian.py:handle_custom_laplacian", "src/jaqmc/laplacian/tracing.py:forward_laplacian_tracing"]}
{"id": "C121", "title": "Structural pruning of parameters loses nothing", "statement": "The parameters that stochastic reconfiguration prunes as structurally inactive do not influence the output: in any linearised program without loops two inputs that agree on the active leaves give the same outputs, so the derivative in a pruned direction is zero; programs with scan and while too, where each carried value the loop body reads is itself wanted. A parameter no equation reads is pruned. The flat indices handed on are increasing and exactly the entries of the active leaves. (With loops the claim is false in general: dependence through a second iteration of scan, or a carried value of a while with constants, is missed.)", "quantifier": "every program with nested calls, conditionals and loops, every choice of branches and repetitions, all inputs and leaf sizes", "why_tests_cant": "All programs, inputs and nestings.", "anchors": ["src/jaqmc/optimizer/sr/jasr.py:get_structural_active_mask", "src/jaqmc/optimizer/sr/jasr.py:get_active_input_positions", "src/jaqmc/optimizer/sr/jasr.py:get_eqn_active_input_positions", "src/jaqmc/optimizer/sr/jasr.py:active_leaf_indices"]}
{"id": "C122", "title": "Pruned stochastic reconfiguration is the same optimizer", "statement": "With pruning, on the active parameters the step, the momentum and the accumulated variance are those of the network that has only these parameters, whatever the options; a pruned parameter without gradient and momentum stays where it is; the update fails exactly when every parameter is pruned. Without clipping of the scores, if the pruned parameters have vanishing scores, step and new state are those without pruning for every number of devices, chunks, damping, momentum and variance option. (With clipping they differ: the mean that is clipped runs over the active parameters only.)", "quantifier": "all scores, gradients, optimizer states, options, devices, samples and sets of active parameters", "why_tests_cant": "All real scores and options.", "anchors": ["src/jaqmc/optimizer/sr/jasr.py:scale_by_fisher_inverse", "src/jaqmc/optimizer/sr/jasr.py:get_idx", "src/jaqmc/optimizer/sr/jasr.py:set_idx", "src/jaqmc/optimizer/sr/jasr.py:ravel_selected_tree"]}
{"id": "C123", "title": "The recorded configuration reproduces the run", "statement": "While options are read, the configuration manager records each value as it was read, and the workflow saves the record as config.yaml. Starting the same program with this record as its only configuration file, no command line options and the same presets gives the same results, reads the same options, and records the same configuration — also if what is read next depends on what was read before. This holds if no option read is a section of another one, and if files and command line put no single value where the presets have a section; without presets the second condition is not needed. Both conditions are necessary.", "quantifier": "All programs reading primitives, containers, dataclasses, callables and modules in any order and depending on earlier values, all presets, files and command lines.", "why_tests_cant": "Programs, configurations and their overlaps cannot be enumerated.", "anchors": ["src/jaqmc/utils/config.py:ConfigManager.get", "src/jaqmc/utils/config.py:ConfigManager.get_module", "src/jaqmc/utils/config.py:ConfigManager._get_dataclass", "src/jaqmc/utils/config.py:ConfigManager._get_callable", "src/jaqmc/utils/config.py:_set_path", "src/jaqmc/workflow/base.py:Workflow.prepare"]}
{"id": "C124", "title": "Configurable classes and module fields load, dump and reload", "statement": "A configurable class refuses keys that are not its fields, loads each field from its value or its default, and what it dumps loads as the same object, independently of the order of keys and with everything that was given. A module field takes a value given directly through its direct type; a section chooses the class named by `module`, or the default class, and fails if there is neither; the class is loaded with the options of the section, then the keyword arguments of the field, then its own defaults; an empty section is the same as none. A module field dumps the name of its class, and reloading gives the same object if that name finds the class. Not so for classes from Python files, whose generated module name is dumped. Keyword arguments of the field, and the options of an object given as default, are also given to another class that is chosen, which may refuse them.", "quantifier": "All classes with any fields, nested to any depth through module fields, all configurations.", "why_tests_cant": "Classes, nestings and configurations cannot be enumerated.", "anchors": ["src/jaqmc/utils/config.py:configurable_dataclass", "src/jaqmc/utils/config.py:module_config", "src/jaqmc/utils/module_resolver.py:import_module_or_file"]}
{"id": "C125", "title": "Configured functions and optax classes are called with the right arguments", "statement": "When a configured function is called, each parameter has the argument given by position, else by keyword, else the configured option, else its own default. Keywords of the call that the function does not have are ignored, while an option that it does not have makes every call fail, unless it takes any keyword. A parameter with a configured value, so every one with a default, cannot be given by position. Otherwise, without options, the configured function behaves as the function itself. A class made from an optax function refuses exactly the functions that require a parameter of unsupported type; initializing it calls the function with the given options, the defaults of the function for the others, and the standard schedule for a schedule parameter whose default is not a number, and this call does not fail.", "quantifier": "All signatures, configurations, arguments and keywords.", "why_tests_cant": "Signatures and calls cannot be enumerated.", "anchors": ["src/jaqmc/utils/config.py:_safe_kw_partial", "src/jaqmc/utils/config.py:_callable_defaults", "src/jaqmc/utils/config.py:ConfigManager._get_callable", "src/jaqmc/optimizer/optax.py:_make_optax_dataclass"]}
{"id": "C126", "title": "No random key is used twice in a run", "statement": "In one training run, fresh or resumed, with or without pretraining, on any number of processes and devices, no two draws of random numbers use the same key or keys derived from one another: the initial walkers of each process, initial parameters and states, every move and acceptance test of every sampler, every estimate of every walker, every optimizer update, at every step on every device, and each of these calls does get a key. The same holds of an evaluation run, and an evaluation with the seed of the training does not replay the random numbers with which the walkers moved in training. The exceptions are samplers with a random initial state (all samplers of a plan are initialised with one key) and a sampler assigned to several fields.", "quantifier": "all numbers of processes, devices, walkers, samplers, estimators, burn-in steps and iterations, all starting steps", "why_tests_cant": "All sizes and histories; equality of keys cannot be seen from outputs.", "anchors": ["src/jaqmc/workflow/vmc.py:VMCWorkflow.run", "src/jaqmc/workflow/evaluation.py:EvaluationWorkflow.run", "src/jaqmc/workflow/stage/sampling.py:SamplingWorkStage.create_state", "src/jaqmc/workflow/stage/sampling.py:SamplingWorkStage._run_burn_in", "src/jaqmc/workflow/stage/vmc.py:VMCWorkStage.compute_step", "src/jaqmc/workflow/stage/vmc.py:VMCWorkStage.loop", "src/jaqmc/sampler/base.py:SamplePlan.step", "src/jaqmc/sampler/mcmc.py:MCMCSampler._mh_update", "src/jaqmc/estimator/base.py:EstimatorPipeline.evaluate", "src/jaqmc/workflow/base.py:init_batched_data"]}
{"id": "C127", "title": "Sampler states are handed on between stages", "statement": "Training starts from the parameters and walkers with which pretraining ended, and continues its sampler states exactly if both stages move the same groups of fields with samplers of the same classes; an evaluation starts from the parameters, walkers and sampler states of the training checkpoint. A sampler that takes over a state keeps its step width, and from the end of the first complete adaptation period on adapts it to the acceptance of the period that just ended, whatever history it inherited, provided the period is the one with which the state was made. With a shorter period (changed on resuming, or for the evaluation) part of the inherited history is never overwritten: the width then shrinks to zero, or grows without bound, whatever the acceptance.", "quantifier": "all sample plans, inherited states, periods, acceptance histories and numbers of steps", "why_tests_cant": "All histories of acceptance ratios and all lengths of runs.", "anchors": ["src/jaqmc/workflow/vmc.py:_samplers_compatible", "src/jaqmc/workflow/vmc.py:VMCWorkflow.run", "src/jaqmc/workflow/evaluation.py:EvaluationWorkflow.run", "src/jaqmc/workflow/stage/sampling.py:SamplingWorkStage.create_state", "src/jaqmc/sampler/mcmc.py:MCMCSampler.step"]}
{"id": "C128", "title": "What a training run does at each step, and when it stops on NaN", "statement": "A fresh run first moves the walkers by the configured number of burn-in steps with the initial parameters and touches nothing else; a resumed run does not. Then every step moves the walkers with the current parameters, estimates everything for the moved walkers with the same parameters, reports these statistics (those of the samplers win a clash of names, the gradient is not reported) and changes the parameters by the optimizer's answer to the gradient estimated there. It continues to the last iteration unless a reported statistic that stop_on_nan names (all of them, none, or a comma-separated list) has a NaN, and then ends right after that row. An evaluation does the same without ever changing the parameters. Not monitored, although one would expect it: names after a comma and a space, NaNs in imaginary parts, and the gradient itself, even if everything is to be monitored.", "quantifier": "all samplers, estimators, optimizers, states, burn-in lengths, iterations, starting steps and settings of stop_on_nan", "why_tests_cant": "All components, lengths and places where NaNs can appear.", "anchors": ["src/jaqmc/workflow/stage/vmc.py:VMCWorkStage.compute_step", "src/jaqmc/workflow/stage/vmc.py:VMCWorkStage._has_nan", "src/jaqmc/workflow/stage/vmc.py:VMCWorkStage.loop", "src/jaqmc/workflow/stage/sampling.py:SamplingWorkStage.burn_in", "src/jaqmc/workflow/stage/evaluation.py:EvaluationWorkStage.compute_step", "src/jaqmc/workflow/stage/evaluation.py:EvaluationWorkStage.loop"]}
{"id": "C129", "title": "First electron positions of the pseudopotential examples", "statement": "init_electrons gives every atom its share of the requested electrons and places each walker's up electrons, then its down electrons, atom by atom, a Gaussian step around the atoms. For neutral molecules (or given assignments) it starts from the elements' own spins without the replaced core electrons and turns up electrons down at random atoms until the totals fit: whatever is drawn, the totals then are the requested ones, every atom keeps its number of electrons and none gets a negative number. It ends whenever the start has at least as many up electrons as requested and every atom comes up again and again. It never returns if more up electrons are requested than the atoms start with (a helium dimer with three up electrons), or if the request is not a tuple; a single charged atom gets the request, other charged molecules are refused, an odd number of replaced core electrons fails an assertion, and electrons given for atoms that do not exist are dropped silently.", "quantifier": "all molecules, requests, given assignments, streams of random numbers, widths and batch sizes", "why_tests_cant": "The random draws are unbounded in number; termination and non-termination cannot be tested.", "anchors": ["src/jaqmc_legacy/pp/utils/init_electrons.py:init_electrons", "legacy_examples/pp/lapnet/run.py:init_electrons"]}
{"id": "C130", "title": "What counts in a DMC run: iterations, outliers and settings", "statement": "Over a whole legacy DMC run, whatever is rejected in between: the step number counts the iterations that counted, their metrics are numbered without gap, the mixed estimator is the one of exactly these iterations, and each used the offset and the anchor left by the one before and was no outlier for that anchor; a rejected attempt changes neither walkers nor weights, offset, anchor, estimator or step number. From positive weights, with variable-size branching, the population never dies out and all weights stay positive; with an energy clip pair all average energies and all mixed estimators stay between the clips. Two things are not as documented: the effective time step also counts the walkers of rejected attempts (so an accepted iteration can report half the time step although it accepted everything), and the arguments effective_time_step_update_period and anchor_energy have no effect at all.", "quantifier": "all walker moves, branching steps with the stated soundness, keys, settings, numbers of passes and histories of rejections", "why_tests_cant": "Every history of rejected and accepted iterations of any length.", "anchors": ["src/jaqmc_legacy/dmc/dmc.py:run", "src/jaqmc_legacy/dmc/dmc.py:make_dmc_single_iteration", "src/jaqmc_legacy/dmc/state.py:State", "src/jaqmc_legacy/dmc/energy_estimator.py:MixedEstimatorCalculator", "src/jaqmc_legacy/dmc/effective_time_step_calculator.py:EffectiveTimeStepCalculator"]}
{"id": "C131", "title": "Source comments in the saved configuration", "statement": "to_yaml (the text saved as config.yaml) adds only comment lines to the dumped configuration: the other lines are unchanged and in order, whatever the text. For every nested configuration with plain keys the comments stand exactly where they belong: directly above the line of each key whose definition is known, indented like it, with file and line (and docstring if asked for) of exactly that path, and never inside a value of several lines. A key with a space is not recognised, and then what is below it is taken for a child of its parent.", "quantifier": "all texts, all nested configurations of any depth with plain keys, all source maps", "why_tests_cant": "Nesting depth, keys and values are unbounded.", "anchors": ["src/jaqmc/utils/yaml_format.py:annotate_yaml_with_sources", "src/jaqmc/utils/config.py:ConfigManager.to_yaml", "src/jaqmc/workflow/base.py:Workflow.prepare"]}
{"id": "C132", "title": "What a run shows in its log", "statement": "Exactly the steps divisible by the console interval are shown, in order, each with its step number and the configured fields it has, under their display names and formats; a configured field that is missing is warned about once, in the first line that lacks it. The time per step logged at the end is the average duration of the steps after the warm-up, and nothing is logged if there are none.", "quantifier": "all sequences of writes, fields, statistics, warm-up lengths and step times", "why_tests_cant": "All histories of writes and times.", "anchors": ["src/jaqmc/writer/console.py:ConsoleWriter.write", "src/jaqmc/utils/time_tracker.py:TimeTracker"]}
{"id": "C133", "title": "Checkpoints on several devices and processes", "statement": "A batch is distributed exactly when its size is a multiple of the number of devices, each process's own walkers on its own devices, in order. A checkpoint restored on the same devices gives every device back its rows; restored on any other number of devices that divides the number of walkers and the rows of the estimator states it gives the same parameters, the same walkers in the same order, the same sampler and estimator states. With several processes a checkpoint can be written only if no estimator has a state (those are not gathered, so a density histogram makes saving fail). A histogram resumed on fewer devices counts every later step D/D' times.", "quantifier": "all meshes of processes and devices, batch sizes, states, checkpoints, and histories of counts before and after the restart", "why_tests_cant": "Meshes, batch sizes and histories are unbounded; tests run on one process.", "anchors": ["src/jaqmc/workflow/stage/sampling.py:SamplingState", "src/jaqmc/workflow/stage/base.py:WorkStage.run", "src/jaqmc/workflow/base.py:init_batched_data", "src/jaqmc/utils/parallel_jax.py", "src/jaqmc/estimator/histogram.py"]}
{"id": "C134", "title": "SR training follows imaginary-time evolution", "statement": "With the gradient reported from the same walkers, a standard SR step moves the parameters by minus the learning rate times the unique change that minimises the mean squared deviation of the change of log psi from twice the (clipped) local energy minus its mean, plus damping times the squared distance (in the MARCH metric) from the SPRING momentum; for complex wavefunctions plus a linear term proportional to the imaginary part of the mean energy of the batch. Where all local energies agree the parameters do not move without momentum. The derivatives used are those of the log-wavefunction, real or complex.", "quantifier": "all wavefunctions (real or complex), batches, device counts, reachable optimizer states, damping, momentum and metric settings, clipping methods", "why_tests_cant": "Minimality over all parameter changes, for all batches and histories of the optimizer.", "anchors": ["src/jaqmc/optimizer/sr/jasr.py:scale_by_fisher_inverse", "src/jaqmc/optimizer/sr/jasr.py:adaptive_grad", "src/jaqmc/estimator/loss_grad.py:LossAndGrad", "src/jaqmc/workflow/stage/vmc.py:VMCWorkStage.compute_step"]}
{"id": "C135", "title": "A reported energy is, on average, the variational energy", "statement": "In an evaluation of a fixed wavefunction, walkers that start distributed by the squared wavefunction stay so after every sampling step, as long as the proposal width is not adapted, the draws at different keys are independent and no key is used twice; the default Gaussian proposal qualifies at every width. So the energy the evaluation reports (mean over walkers, devices and steps) has as its average over the draws the variational energy of the wavefunction, with no imaginary part, and lies on average above every lower bound of the Hamiltonian; for an eigenstate every evaluation reports the eigenvalue almost surely. Adaptation of the width in between breaks the first statement in general.", "quantifier": "all configuration spaces and reference measures, wavefunctions, reversible proposals, symmetric Hamiltonians with their local energies, numbers of devices, walkers, updates and steps, and all generators with independent draws", "why_tests_cant": "An average over all draws of the generator, on a continuous configuration space.", "anchors": ["src/jaqmc/sampler/mcmc.py:MCMCSampler", "src/jaqmc/sampler/mcmc.py:gaussian_proposal", "src/jaqmc/sampler/base.py:SamplePlan.step", "src/jaqmc/estimator/base.py:mean_reduce", "src/jaqmc/estimator/base.py:Estimator.finalize_stats"]}
{"id": "C136", "title": "Moves on the sphere and in a periodic cell keep detailed balance", "statement": "The proposal used for the sphere is as likely to go from one place to another as back, with respect to area (not to the angles), at every width, for any number of electrons; almost every such move ends at proper polar angles, those of the rotated point. The wrapped Gaussian proposal used for solids is as likely one way as the other with respect to the volume of the simulation cell, for every lattice. So evaluations on the sphere and of solids keep their walkers in the distribution of the squared wavefunction and report the variational energy on average.", "quantifier": "all widths, numbers of electrons, lattices with independent vectors, wavefunctions, symmetric operators, numbers of devices, walkers and steps", "why_tests_cant": "An average over all draws and all places on the sphere or in the cell.", "anchors": ["src/jaqmc/geometry/sphere.py:_sphere_move", "src/jaqmc/geometry/sphere.py:sphere_proposal", "src/jaqmc/geometry/pbc.py:make_pbc_gaussian_proposal", "src/jaqmc/geometry/pbc.py:wrap_positions", "src/jaqmc/sampler/mcmc.py:MCMCSampler"]}
{"id": "C137", "title": "Burn-in of a solid forgets where the walkers started", "statement": "For every lattice, every bounded wavefunction that does not vanish almost everywhere and every proposal width other than zero there is a rate below one such that, wherever the walkers start and however many devices, walkers and steps there are: after k sampling steps the chance to find a walker in any region, and the average of any bounded quantity, differ from those of the squared wavefunction by at most the rate to the number of updates (times the range of the quantity); and the average of the energy an evaluation of T steps reports differs from the variational energy by at most a constant over T when the local energy is bounded. With width zero the walkers never move.", "quantifier": "all lattices with independent vectors, bounded wavefunctions, widths, starting places, regions, bounded quantities, symmetric operators with bounded local energy, numbers of electrons, devices, walkers, updates and steps with an unadapted width", "why_tests_cant": "A limit over all lengths of a run, an average over all draws, and a supremum over all starting places.", "anchors": ["src/jaqmc/sampler/mcmc.py:MCMCSampler", "src/jaqmc/geometry/pbc.py:make_pbc_gaussian_proposal", "src/jaqmc/geometry/pbc.py:wrap_positions", "src/jaqmc/estimator/base.py:EstimatorPipeline"]}
{"id": "C138", "title": "From any start the walkers converge to the squared wavefunction", "statement": "With the width not adapted and other than zero: for every measurable wavefunction of a molecule, a solid or a system on the sphere whose square has a finite integral other than zero (bounded or not; on the sphere it may vanish only on a set without area), for every starting place and every tolerance there is a number of updates after which, in every run that starts there, the chance to find a walker in any region differs from that of the squared wavefunction by at most the tolerance, and so do averages of bounded quantities (times their bound). For starting places drawn from any distribution averages of bounded quantities converge too. The average of the energy a long enough evaluation reports is within any tolerance of the variational energy when the local energy is bounded. With width zero the walkers never move, and on the sphere the condition is needed: for a wavefunction on two opposite caps the walkers of one cap never reach the other.", "quantifier": "all measurable square-integrable wavefunctions other than zero, widths, starting places and distributions, tolerances, regions, bounded quantities, symmetric operators with bounded local energy, numbers of electrons, devices, walkers, updates and steps with an unadapted width", "why_tests_cant": "A limit over all lengths of a run and an average over all draws, for wavefunctions and start places of which there are infinitely many.", "anchors": ["src/jaqmc/sampler/mcmc.py:MCMCSampler", "src/jaqmc/sampler/mcmc.py:gaussian_proposal", "src/jaqmc/geometry/pbc.py:make_pbc_gaussian_proposal", "src/jaqmc/geometry/sphere.py:sphere_proposal", "src/jaqmc/estimator/base.py:EstimatorPipeline"]}
{"id": "C139", "title": "One long evaluation, from any start, reports the variational energy", "statement": "With the width not adapted and other than zero, in molecules, in solids and (for wavefunctions zero only on a set without area) on the sphere: for every quantity with an average in the distribution of the squared wavefunction, bounded or not, every choice of starting places, every tolerance and every chance of failure there is a length such that in every evaluation at least that long the one number it reports, the average over its steps, devices and walkers, is within the tolerance of that average but for the given chance. In particular the energy it reports is within the tolerance of the variational energy of the wavefunction, with no condition on the size of the local energy. In a molecule the length must depend on the start: for every number of updates there are starting places from which the walkers are, but for any given chance, still in a region the squared wavefunction gives almost no weight.", "quantifier": "all measurable square-integrable wavefunctions other than zero, symmetric operators with measurable local energy, integrable quantities, starting places, tolerances, failure chances, widths, numbers of electrons, devices, walkers and updates per step, and all evaluations of at least the length found", "why_tests_cant": "A law of large numbers for a dependent sequence, over all draws and all lengths, with readings that have no bound.", "anchors": ["src/jaqmc/sampler/mcmc.py:MCMCSampler", "src/jaqmc/estimator/base.py:EstimatorPipeline", "src/jaqmc/estimator/base.py:mean_reduce", "src/jaqmc/workflow/evaluation.py"]}
{"id": "C140", "title": "The reported energy variance measures the distance from an eigenstate", "statement": "The variance an evaluation reports beside its energy is never negative. With walkers distributed by the squared wavefunction and the width not adapted, it is on average at most the variance of the real part of the local energy, whatever the walkers have to do with each other; with walkers that start and draw independently it is on average exactly that variance times 1 - 1/N for N walkers over all devices, and the energy of one step scatters with that variance over N. That variance, together with the mean square of the imaginary part of the local energy, is the squared length of H phi - E phi over that of phi. So for a real local energy and two walkers or more the reported variance is zero in almost every evaluation of an eigenstate, and of no other wavefunction. For a complex local energy this fails: only the variance of the real parts is reported, and there is a wavefunction that is no eigenstate of its Hamiltonian but for which every evaluation, whatever the draws, reports the variance zero.", "quantifier": "all symmetric operators, wavefunctions in their domain, local energies, proposals as likely one way as the other, numbers of devices, walkers, updates and steps, and generators of independent draws", "why_tests_cant": "It is about averages over all draws and about all operators and wavefunctions; a test sees one run of one system.", "anchors": ["src/jaqmc/estimator/base.py:mean_reduce", "src/jaqmc/estimator/total_energy.py:TotalEnergy", "src/jaqmc/sampler/mcmc.py:MCMCSampler", "src/jaqmc/workflow/evaluation.py"]}
{"id": "C141", "title": "The gradient of a training step, taken from sampled walkers, is the derivative of the energy", "statement": "The walkers a training step computes its loss and gradient from come out of the sampler, not from an ideal source. If walkers start and draw independently, no two devices share a key and the width is not adapted, then: walkers that start distributed by the squared wavefunction are after every sampling step, all together, an independent sample from it, so that whatever is computed from the batch, clipped or not, is distributed as for such a sample. Without clipping, the loss then averages to the energy, and the gradient to 1 - 1/N times the derivative of the energy plus a term of order 1/N that vanishes for real wavefunctions. With enough walkers, loss and gradient are as near to the energy and its derivative as one likes with a chance as near to one as one likes. Walkers may also start anywhere: after enough updates the whole batch is as near to an independent sample as one likes, and with enough walkers and then enough updates loss and gradient are again as accurate as one likes; this holds for molecules, solids and the sphere with the proposals of the package, for local energies and log-derivatives that need not be bounded. If instead all walkers start in one place and draw the same numbers, every gradient is zero for a real wavefunction, whatever the derivative.", "quantifier": "all symmetric operators and differentiable families of wavefunctions in their domain, starting places, numbers of devices, walkers, updates and steps, and generators of independent draws", "why_tests_cant": "It is about the joint distribution of all walkers over all draws, and about limits in the numbers of walkers and updates; a test sees single batches.", "anchors": ["src/jaqmc/workflow/stage/vmc.py:compute_step", "src/jaqmc/estimator/loss_grad.py:LossAndGrad", "src/jaqmc/sampler/mcmc.py:MCMCSampler"]}
{"id": "C142", "title": "Throughout training the walkers follow the changing wavefunction", "statement": "Training changes the parameters in every step, so the walkers never settle, and the width of the proposals is adapted all along. If all wavefunctions of the family are normalisable, none is concentrated more than some constant allows, and the proposal can go everywhere with the widths in use (solids with any invertible lattice, all widths but zero), then there is a rate smaller than one such that in every training step, for every rule that computes the next parameters and optimizer state from the batch, every start of the walkers and any number of steps, devices and walkers: the walkers a step computes its loss and gradient from are, together with all that the run holds before the step, as good as an independent sample from the squared wavefunction of the current parameters, up to twice the number of walkers times the rate to the number of updates. The rate depends neither on the rule nor on the start nor on the parameters. The adaptation multiplies or divides the width by 1.1, so a run of T steps uses finitely many widths.", "quantifier": "all families of wavefunctions, update rules, starting places, adaptations of the width, numbers of devices, walkers, updates and steps, and generators of independent draws", "why_tests_cant": "It is about the joint distribution of parameters and walkers after every step of every training run; a test sees single runs of one wavefunction.", "anchors": ["src/jaqmc/workflow/stage/vmc.py:compute_step", "src/jaqmc/sampler/mcmc.py:MCMCSampler"]}
{"id": "C143", "title": "Plain gradient descent on sampled gradients makes the energy flat", "statement": "A training run with optax's sgd changes the parameters in every step by minus the learning rate times the gradient it computes, without clipping, from the walkers its sampler left. If the wavefunctions are real, their log-derivatives and local energies bounded, and the energy a function of the parameters that is bounded below and whose gradient changes at a bounded rate, then for every sequence of learning rates the mean squared gradient of the energy at the parameters the run passes, weighted with the learning rates, is at most what the energy can fall, plus a constant times the sum of the squared learning rates, plus an error that vanishes geometrically with the number of updates of the sampler, all divided by 1 - 1/N for N walkers. So for solids, with the width adapted all along, any wanted flatness is reached on average with a small enough constant learning rate, enough steps (both independent of the number of walkers, two at least, and of the start) and enough updates between the steps.", "quantifier": "all such families of wavefunctions, learning rates and schedules, starting parameters and places, numbers of devices, walkers, updates and steps, and generators of independent draws", "why_tests_cant": "It is about the average over all runs of the true gradient at the parameters of the run; a test sees the noisy gradients of a few runs of one wavefunction.", "anchors": ["src/jaqmc/optimizer/optax.py:_make_optax_dataclass", "src/jaqmc/workflow/stage/vmc.py:compute_step", "src/jaqmc/estimator/loss_grad.py:LossAndGrad"]}
{"id": "C144", "title": "The loss reported in training is the energy of the wavefunction the step starts with", "statement": "The loss each step of a training run reports is the mean local energy over the walkers its sampling left, under the parameters before the update; clipping does not enter it. If the local energies are bounded by E, then, whatever the optimizer does (any measurable rule from parameters and walkers to new parameters), for every step t the mean of the reported loss over all runs differs from the mean energy of the wavefunction the step starts with, and its imaginary part from zero, by at most an amount that vanishes geometrically with the number of updates of the sampler, and the mean squared difference of loss and energy is at most E²/N for N walkers plus such an amount. So for solids, with the width adapted all along, with enough walkers and then enough updates every one of T losses is within any wanted error of the energy in mean square.", "quantifier": "all families of wavefunctions with bounded local energies, update rules, clipping methods, starting parameters and places, numbers of devices, walkers, updates and steps, and generators of independent draws", "why_tests_cant": "The energy of the wavefunction at each step is random and not computable; a test compares the losses of one run with reference numbers.", "anchors": ["src/jaqmc/workflow/stage/vmc.py:compute_step", "src/jaqmc/estimator/loss_grad.py:LossAndGrad"]}
{"id": "C145", "title": "Which learning-rate schedules let plain gradient descent settle", "statement": "With optax's sgd, whose learning rate is by default the standard schedule rate / (1 + t / delay) ^ decay, and no clipping, under the conditions of C143 (real wavefunctions, bounded log-derivatives and local energies, an energy bounded below whose gradient changes at a bounded rate), for solids with the width adapted all along: for any positive rate and delay, however large, and any exponent above zero and at most one (the default is one), for every wanted flatness there is a number of steps from which on, for any number of walkers, two at least, and enough updates of the sampler between the steps, the mean squared gradient of the energy, averaged over the run with the learning rates as weights, and so at some step of the run, is at most that. The same for any learning rates that go to zero and whose sum is unbounded. With an exponent above one, on the other hand, the parameters of all runs stay within a fixed distance of their start, wherever the minimum is.", "quantifier": "all such wavefunctions, rates, delays and exponents, starting parameters and places, numbers of devices, walkers, updates and steps, and generators of independent draws", "why_tests_cant": "It is about the limit of long runs, averaged over all draws, for every schedule; a test runs some steps with one schedule.", "anchors": ["src/jaqmc/optimizer/schedule.py:Standard", "src/jaqmc/optimizer/optax.py:_make_optax_dataclass", "src/jaqmc/workflow/stage/vmc.py:compute_step"]}
{"id": "C146", "title": "Training leaves an exact wavefunction alone and moves a nearly exact one slowly", "statement": "If the local energy is one and the same real number wherever the starting wavefunction is not zero, then a training run with optax's sgd, or with stochastic reconfiguration (momentum, metric, clipping and constraints included), does nothing to it: for every seed, every sampler, all walkers that start where the wavefunction is not zero, every learning rate, clip_method, number of devices, walkers and steps, the parameters stay what they were, every reported loss is that number, and the walkers are those of an evaluation of that wavefunction. This needs the fresh start: an SR optimizer with momentum that is still moving when it comes to such parameters moves on. If the local energies are only within a (real part) and b (imaginary part) of such a number, in some region of parameters, and the log-derivatives at most G, every loss reported there is within a of it, every component of the gradient is at most 4 G (a + b), with every clip_method and any non-negative clip_scale, and with sgd no parameter moves in t steps by more than the sum of their learning rates times that, as long as this does not lead out of the region.", "quantifier": "all such wavefunctions, parameters, seeds, samplers, walkers off the nodes, settings of the optimizers, learning rates, clipping, numbers of devices, walkers and steps", "why_tests_cant": "It is about every run of every length, for every wavefunction that is an eigenfunction or nearly one; a test takes some steps of one.", "anchors": ["src/jaqmc/workflow/stage/vmc.py:compute_step", "src/jaqmc/estimator/loss_grad.py:LossAndGrad", "src/jaqmc/utils/clip.py:clip_observable", "src/jaqmc/optimizer/sr/jasr.py:robust_sr", "src/jaqmc/optimizer/optax.py:_make_optax_dataclass"]}
{"id": "C147", "title": "A DMC run whose guide has the exact energy everywhere is still", "statement": "Take a legacy DMC run. If every local energy is between lo and hi, the starting estimate too, and clipping leaves such energies alone, then so is every energy the run reports (the average before and after branching and the mixed estimator of every iteration), whatever happens to weights and population, with either branching; and if the outlier threshold allows for hi - lo, no iteration is rejected. If every local energy is the same number E (an exact guide) all reported energies are E and nothing is ever rejected. If such a run starts from the default state (any number of devices, two walkers or more) and the branching thresholds are on either side of one, then nothing raises or is rejected, the run ends after exactly num_steps + block_size + 1 passes, and after each iteration there are as many walkers as at the start, all with weight one, and energy offset and mixed estimator are E.", "quantifier": "all moves, walkers, keys, time steps, cut-offs (also the UNR one), clipping, branching thresholds and draws, update intervals and amplitudes, and run lengths", "why_tests_cant": "It is about every iteration of every run; a test runs a few.", "anchors": ["src/jaqmc_legacy/dmc/dmc.py:run,make_dmc_single_iteration,calc_branch_val", "src/jaqmc_legacy/dmc/state.py:State.default", "src/jaqmc_legacy/dmc/hamiltonian.py:make_calc_energy_func", "src/jaqmc_legacy/dmc/branch.py:branch", "src/jaqmc_legacy/dmc/branch_fix_size.py:branch"]}
{"id": "C148", "title": "Weights & Biases gets every real scalar once, and only the writer's own runs are finished", "statement": "Whatever a process does (stages that end or raise, writes outside a stage, runs the user starts or ends between stages), the W&B writer sends the real scalars of every write of every stage up to its exception, once, in order, under the step given, and nothing else (a write without any sends nothing); what is sent goes to the run that is open then; the writer starts a run only when none is active, tells it directory, stage, and project and name as configured, and finishes exactly the runs it started, each once, also after an exception; a run of the user is reused and left open. An exception of the stage comes out, no other is raised, and outside a stage a write raises. (Finding: complex scalars are silently left out, although the documentation says that scalars are logged and non-scalar values skipped.)", "quantifier": "all histories of stages, writes, exceptions and user runs, all statistics, projects and names", "why_tests_cant": "It is about every history; a test runs one or two stages with a mock.", "anchors": ["src/jaqmc/writer/wandb.py:WandbWriter.open,write"]}
{"id": "C149", "title": "Population control brings the total weight back to the target", "statement": "In a DMC run with a guide whose local energy is the same everywhere, the first recorded total weight is the starting weight times exp(effective time step x (starting offset - E)), and every later one is the one recorded before times exp(effective time step x (offset in force - E)). With the offset updated at every iteration, each iteration multiplies the logarithm of total weight over target by 1 - amplitude x time step x (new effective time step / old one), whatever the moves, the branching and the key do; so, while that factor stays between -(1-a) and 1-a, the logarithm is after i iterations at most (1-a)^i times what it was. If all acceptance rates lie between q > 0 and one, every effective time step lies between q x time step and the time step, and the condition holds with a = amplitude x time step x q whenever amplitude x time step x (q + 1/q) is at most 2. With electron-by-electron moves, where every walker grows with its own effective time step, the same holds with one time step between the smallest (lo) and the largest (hi) of them in place of the new effective one, and a = amplitude x time step x lo/hi whenever amplitude x time step x (lo/hi + hi/lo) is at most 2.", "quantifier": "all run lengths, walkers, weights, moves, keys, offsets, targets", "why_tests_cant": "It is about every run of every length; tests look at a few steps.", "anchors": ["src/jaqmc_legacy/dmc/dmc.py:run,update_energy_offset,calc_branch_val"]}
{"id": "C150", "title": "A dry run changes nothing and predicts the run", "statement": "A launch with --dry-run, whatever files and options it is given, sets up logging and JAX and does nothing else: no connection to other processes, no file written or moved, no workflow started. When nothing is said about the section 'distributed' (and the workflow does not read it), it ends exactly as the run ends before starting: with the same error, the same unused options reported, or by coming through, which it does exactly when the run starts. A run that starts has on its first process just written the resolved configuration, after moving a differing snapshot away; a run that does not start has written nothing. (Findings: the section 'distributed' is only read by runs, so a dry run of any configuration with an option there ends with an error about unused options although the run starts, and so does the dry run of every configuration a run has saved, since the saved one always has the section; and unused options stop the first process of a run only, every other one starts the workflow.)", "quantifier": "all files, command-line options, workflows (as programs reading the configuration), snapshots, processes", "why_tests_cant": "It is about all configurations and all workflows; tests look at a few commands.", "anchors": ["src/jaqmc/utils/cli.py:make_cli,load_yaml; src/jaqmc/utils/runtime.py:configure_runtime; src/jaqmc/workflow/base.py:Workflow.prepare,__call__"]}
