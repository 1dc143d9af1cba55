{
 "claims": [
  {
   "property": "C01",
   "status": "partial",
   "theorems": [
    "Jaqmc.Checkpoint.Props.c01_latest_partial",
    "Jaqmc.Checkpoint.Props.c01_name_order",
    "Jaqmc.Checkpoint.Props.c01_names_distinct",
    "Jaqmc.Checkpoint.Props.c01_million"
   ],
   "note": "Holds for steps below 10^6; c01_million shows the newest checkpoint is not chosen beyond."
  },
  {
   "property": "C02",
   "status": "partial",
   "theorems": [
    "Jaqmc.Checkpoint.Props.c02_damaged_partial",
    "Jaqmc.Checkpoint.Props.c02_nothing_to_restore",
    "Jaqmc.Checkpoint.Props.c02_file_strict",
    "Jaqmc.Checkpoint.Props.c02_tiny_torn_file_blocks_restore",
    "Jaqmc.Checkpoint.Props.c02_uncaught_damage_propagates"
   ],
   "note": "Damage reported by NumPy as OSError/EOFError/BadZipFile is skipped; other exception kinds propagate."
  },
  {
   "property": "C03",
   "status": "partial",
   "theorems": [
    "Jaqmc.Checkpoint.Props.c03_roundtrip_partial",
    "Jaqmc.Checkpoint.Props.c03_save_frame",
    "Jaqmc.Checkpoint.Props.c03_key_collision",
    "Jaqmc.Checkpoint.Props.c03_reserved_key"
   ],
   "note": "Needs distinct slash-joined paths and no reserved key; both failures are exhibited."
  },
  {
   "property": "C04",
   "status": "partial",
   "theorems": [
    "Jaqmc.Writers.Props.c04_csv_partial",
    "Jaqmc.Writers.Props.c04_sessions_valid",
    "Jaqmc.Writers.Props.c04_torn_header",
    "Jaqmc.Writers.Props.c04_fork_duplicates"
   ],
   "note": "Fails when the kill falls inside the header line or when the run forks from another directory."
  },
  {
   "property": "C05",
   "status": "partial",
   "theorems": [
    "Jaqmc.Writers.Props.c05_hdf5_partial",
    "Jaqmc.Writers.Props.c05_unflushed_misaligns",
    "Jaqmc.Writers.Props.c05_late_key_misaligns"
   ],
   "note": "Needs a key recorded at every step and rows flushed up to the resume point."
  },
  {
   "property": "C06",
   "status": "partial",
   "theorems": [
    "Jaqmc.Writers.Props.c06_once_partial",
    "Jaqmc.Writers.Props.c06_counts_all",
    "Jaqmc.Writers.Props.c06_kill_duplicates"
   ],
   "note": "True without hard kills; a hard kill between checkpoints duplicates rows."
  },
  {
   "property": "C07",
   "status": "proved",
   "theorems": [
    "Jaqmc.RunLoop.Props.c07_schedule",
    "Jaqmc.RunLoop.Props.c07_ends_saved",
    "Jaqmc.RunLoop.Props.c07_zero_interval"
   ],
   "note": ""
  },
  {
   "property": "C08",
   "status": "proved",
   "theorems": [
    "Jaqmc.RunLoop.Props.c08_interrupts"
   ],
   "note": ""
  },
  {
   "property": "C09",
   "status": "proved",
   "theorems": [
    "Jaqmc.RunLoop.Props.c09_replay",
    "Jaqmc.RunLoop.Props.c09_finishes",
    "Jaqmc.RunLoop.Props.c09_resume_point"
   ],
   "note": ""
  },
  {
   "property": "C10",
   "status": "partial",
   "theorems": [
    "Jaqmc.RunLoop.Props.c10_poisoned",
    "Jaqmc.RunLoop.Props.c10_stuck",
    "Jaqmc.RunLoop.Props.c10_older_kept_partial"
   ],
   "note": "False of the code: the NaN state is saved as newest checkpoint; only older checkpoints being kept is proved."
  },
  {
   "property": "C11",
   "status": "proved",
   "theorems": [
    "Jaqmc.Config.Props.c11_precedence",
    "Jaqmc.Config.Props.c11_layers",
    "Jaqmc.Config.Props.c11_source"
   ],
   "note": ""
  },
  {
   "property": "C12",
   "status": "partial",
   "theorems": [
    "Jaqmc.Config.Props.c12_reported_partial",
    "Jaqmc.Config.Props.c12_finalize_partial",
    "Jaqmc.Config.Props.c12_reads_recorded",
    "Jaqmc.Config.Props.c12_dotted_key_ignored"
   ],
   "note": "Proved when no key contains a dot; a YAML key with a dot is silently ignored."
  },
  {
   "property": "C13",
   "status": "partial",
   "theorems": [
    "Jaqmc.Config.Props.c13_section_partial",
    "Jaqmc.Config.Props.c13_container",
    "Jaqmc.Config.Props.c13_unknown_field",
    "Jaqmc.Config.Props.c13_scalar_section_dropped"
   ],
   "note": "Proved when the user supplies a dictionary; a scalar for a section is silently dropped."
  },
  {
   "property": "C14",
   "status": "proved",
   "theorems": [
    "Jaqmc.Config.Props.c14_override"
   ],
   "note": ""
  },
  {
   "property": "C15",
   "status": "proved",
   "theorems": [
    "Jaqmc.Data.Props.c15_roundtrip",
    "Jaqmc.Data.Props.c15_merge",
    "Jaqmc.Data.Props.c15_subset"
   ],
   "note": ""
  },
  {
   "property": "C16",
   "status": "partial",
   "theorems": [
    "Jaqmc.Data.Props.c16_check_partial",
    "Jaqmc.Data.Props.c16_unknown_field_typeError",
    "Jaqmc.Data.Props.c16_other_leaf_skips"
   ],
   "note": "Proved when all leaves are concrete arrays; unknown fields raise TypeError and one non-array leaf disables the check."
  },
  {
   "property": "C17",
   "status": "proved",
   "theorems": [
    "Jaqmc.Data.Props.c17_chunked"
   ],
   "note": ""
  },
  {
   "property": "C18",
   "status": "partial",
   "theorems": [
    "Jaqmc.Stats.Props.c18_stats_partial",
    "Jaqmc.Stats.Props.c18_var_nonneg_partial",
    "Jaqmc.Stats.Props.c18_dict_partial",
    "Jaqmc.Stats.Props.c18_lost_device",
    "Jaqmc.Stats.Props.c18_uneven_nan",
    "Jaqmc.Stats.Props.c18_var_key_collision"
   ],
   "note": "Proved when every device has equally many non-NaN values and no name is another one's _var name; both exceptions are exhibited."
  },
  {
   "property": "C19",
   "status": "partial",
   "theorems": [
    "Jaqmc.Stats.Props.c19_reduce",
    "Jaqmc.Stats.Props.c19_state",
    "Jaqmc.Stats.Props.c19_before",
    "Jaqmc.Stats.Props.c19_finalize_partial",
    "Jaqmc.Stats.Props.c19_clash"
   ],
   "note": "Proved when no two estimators report the same name; c19_clash is the failure otherwise."
  },
  {
   "property": "C20",
   "status": "proved",
   "theorems": [
    "Jaqmc.Stats.Props.c20_counts",
    "Jaqmc.Stats.Props.c20_once",
    "Jaqmc.Stats.Props.c20_sum",
    "Jaqmc.Stats.Props.c20_compensated"
   ],
   "note": "Exact arithmetic; jnp.histogramdd modelled from its documentation."
  },
  {
   "property": "C21",
   "status": "proved",
   "theorems": [
    "Jaqmc.Stats.Props.c21_total",
    "Jaqmc.Stats.Props.c21_order",
    "Jaqmc.Stats.Props.c21_array_rejected",
    "Jaqmc.Stats.Props.c21_components"
   ],
   "note": ""
  },
  {
   "property": "C22",
   "status": "partial",
   "theorems": [
    "Jaqmc.LossGrad.Props.c22_real_shift_partial",
    "Jaqmc.LossGrad.Props.c22_covariance",
    "Jaqmc.LossGrad.Props.c22_complex_shift",
    "Jaqmc.LossGrad.Props.c22_nan_walker"
   ],
   "note": "Proved for real constants and batches without NaN; the baseline misses a complex conjugate (exact error term in c22_covariance, failing case c22_complex_shift) and NaN walkers bias the baseline (c22_nan_walker)."
  },
  {
   "property": "C23",
   "status": "proved",
   "theorems": [
    "Jaqmc.LossGrad.Props.c23_iqr",
    "Jaqmc.LossGrad.Props.c23_mad",
    "Jaqmc.LossGrad.Props.c23_none",
    "Jaqmc.LossGrad.Props.c23_order",
    "Jaqmc.LossGrad.Props.c23_complex",
    "Jaqmc.LossGrad.Props.c23_negative_scale"
   ],
   "note": "For non-negative scales; c23_negative_scale shows why."
  },
  {
   "property": "C24",
   "status": "partial",
   "theorems": [
    "Jaqmc.Sampler.Props.c24_in_turn_partial",
    "Jaqmc.Sampler.Props.c24_overlap"
   ],
   "note": "Proved when no field is assigned to two samplers; with overlapping fields the earlier sampler's moves are lost (c24_overlap)."
  },
  {
   "property": "C25",
   "status": "proved",
   "theorems": [
    "Jaqmc.Sampler.Props.c25_walkers",
    "Jaqmc.Sampler.Props.c25_ratio",
    "Jaqmc.Sampler.Props.c25_fresh_keys",
    "Jaqmc.Sampler.Props.c25_test",
    "Jaqmc.Sampler.Props.c25_positive",
    "Jaqmc.Sampler.Props.c25_nan_stuck"
   ],
   "note": "Any generator, proposal and target, with NaN and infinities. c25_nan_stuck: a walker starting at NaN never moves."
  },
  {
   "property": "C26",
   "status": "proved",
   "theorems": [
    "Jaqmc.Sampler.Props.c26_probability",
    "Jaqmc.Sampler.Props.c26_detailed_balance",
    "Jaqmc.Sampler.Props.c26_stationary",
    "Jaqmc.Sampler.Props.c26_compose"
   ],
   "note": "Acceptance probability as Lebesgue measure of the accepting draws of an ideal uniform."
  },
  {
   "property": "C27",
   "status": "proved",
   "theorems": [
    "Jaqmc.Sampler.Props.c27_width",
    "Jaqmc.Sampler.Props.c27_no_steps"
   ],
   "note": ""
  },
  {
   "property": "C28",
   "status": "proved",
   "theorems": [
    "Jaqmc.Geometry.Props.c28_diagonal"
   ],
   "note": ""
  },
  {
   "property": "C29",
   "status": "partial",
   "theorems": [
    "Jaqmc.Geometry.Props.c29_nearby_partial",
    "Jaqmc.Geometry.Props.c29_inscribed_partial",
    "Jaqmc.Geometry.Props.c29_orthogonal_partial",
    "Jaqmc.Geometry.Props.c29_far",
    "Jaqmc.Geometry.Props.c29_skewed"
   ],
   "note": "Proved for displacements within reach (c29_nearby_partial), for displacements shorter than the inscribed radius, and for orthogonal cells with wrapped inputs; failing cases: far displacements (c29_far) and skewed cells (c29_skewed)."
  },
  {
   "property": "C30",
   "status": "proved",
   "theorems": [
    "Jaqmc.Geometry.Props.c30_wrap",
    "Jaqmc.Geometry.Props.c30_separates",
    "Jaqmc.Geometry.Props.c30_proposal"
   ],
   "note": ""
  },
  {
   "property": "C31",
   "status": "proved",
   "theorems": [
    "Jaqmc.Geometry.Props.c31_periodic",
    "Jaqmc.Geometry.Props.c31_nonneg"
   ],
   "note": ""
  },
  {
   "property": "C32",
   "status": "proved",
   "theorems": [
    "Jaqmc.Geometry.Props.c32_within",
    "Jaqmc.Geometry.Props.c32_between"
   ],
   "note": ""
  },
  {
   "property": "C33",
   "status": "partial",
   "theorems": [
    "Jaqmc.Geometry.Props.c33_sphere_partial",
    "Jaqmc.Geometry.Props.c33_seam",
    "Jaqmc.Geometry.Props.c33_pole"
   ],
   "note": "Proved off the half circle y = 0, x <= 0 where the angle conversion is wrong (c33_seam) or NaN (c33_pole)."
  },
  {
   "property": "C34",
   "status": "proved",
   "theorems": [
    "Jaqmc.Ewald.Props.c34_half",
    "Jaqmc.Ewald.Props.c34_recip"
   ],
   "note": ""
  },
  {
   "property": "C35",
   "status": "partial",
   "theorems": [
    "Jaqmc.Ewald.Props.c35_even_partial",
    "Jaqmc.Ewald.Props.c35_left_handed",
    "Jaqmc.Ewald.Props.c35_differs"
   ],
   "note": "False of the code: for every left-handed lattice the determinant is used as volume and all reciprocal vectors are dropped (c35_left_handed); c35_differs is a concrete difference. Proved for reorderings of the same handedness (reciprocal, self and background parts)."
  },
  {
   "property": "C36",
   "status": "partial",
   "theorems": [
    "Jaqmc.Supercell.Props.c36_lattice",
    "Jaqmc.Supercell.Props.c36_tiling_partial",
    "Jaqmc.Supercell.Props.c36_origin_missing",
    "Jaqmc.Supercell.Props.c36_large"
   ],
   "note": "Proved when every column of S has a positive entry and |det S| < 100000; for every matrix with a column without positive entry the origin cell is missing (c36_origin_missing), and for large cells the tolerance drops cells (c36_large)."
  },
  {
   "property": "C37",
   "status": "partial",
   "theorems": [
    "Jaqmc.Supercell.Props.c37_symmetric_partial",
    "Jaqmc.Supercell.Props.c37_wrong_point",
    "Jaqmc.Supercell.Props.c37_missing_point"
   ],
   "note": "Proved, with completeness, for symmetric S; for non-symmetric S wrong points (c37_wrong_point) and missing points (c37_missing_point)."
  },
  {
   "property": "C38",
   "status": "proved",
   "theorems": [
    "Jaqmc.Spins.Props.c38_distribute"
   ],
   "note": "Any random choices. rawSpins (the starting occupation) is characterised under C39."
  },
  {
   "property": "C39",
   "status": "partial",
   "theorems": [
    "Jaqmc.Spins.Props.c39_unfixed_partial",
    "Jaqmc.Spins.Props.c39_fixed_sign",
    "Jaqmc.Spins.Props.c39_parity"
   ],
   "note": "Holds for atoms without prescribed spin; with a prescribed spin the sign of the local charge is inverted (c39_fixed_sign)."
  },
  {
   "property": "C40",
   "status": "partial",
   "theorems": [
    "Jaqmc.Misc.Props.c40_wire_partial",
    "Jaqmc.Misc.Props.c40_no_unset",
    "Jaqmc.Misc.Props.c40_check_partial",
    "Jaqmc.Misc.Props.c40_nested_unset_passes",
    "Jaqmc.Misc.Props.c40_preset_rejected",
    "Jaqmc.Misc.Props.c40_class_value_rejected"
   ],
   "note": "wire is characterised at every depth; check_wired ignores nested components and wire rejects dependencies set by hand (both shown)."
  },
  {
   "property": "C41",
   "status": "proved",
   "theorems": [
    "Jaqmc.Schedule.Props.c41_standard",
    "Jaqmc.Schedule.Props.c41_constant"
   ],
   "note": "Over the reals."
  },
  {
   "property": "C42",
   "status": "proved",
   "theorems": [
    "Jaqmc.Data.Props.c42_split"
   ],
   "note": ""
  },
  {
   "property": "C43",
   "status": "proved",
   "theorems": [
    "Jaqmc.Interp.Props.c43_same",
    "Jaqmc.Interp.Props.c43_no_missing"
   ],
   "note": "For all programs; an output variable may be read at most 2^31-1 times (the pin value)."
  },
  {
   "property": "C44",
   "status": "partial",
   "theorems": [
    "Jaqmc.Laplacian.Props.c44_forward_laplacian_partial",
    "Jaqmc.Laplacian.Props.c44_derivatives_partial",
    "Jaqmc.Laplacian.Props.c44_user_tuples_partial",
    "Jaqmc.Laplacian.Props.c44_div_alias",
    "Jaqmc.Laplacian.Props.c44_name_collision",
    "Jaqmc.Laplacian.Props.c44_non_holomorphic"
   ],
   "note": "Dense Jacobians, exact numbers; all handlers, nested programs, while and scan, any number of inputs. Not true of the code, and shown so: dividing an array object by its own tracked self (c44_div_alias), jitted user functions with a registered name (c44_name_collision), non-holomorphic complex functions without a rule of their own (c44_non_holomorphic). Scans of length 0 are not modelled."
  },
  {
   "property": "C45",
   "status": "partial",
   "theorems": [
    "Jaqmc.Sparse.Props.c45_program_partial",
    "Jaqmc.Sparse.Props.c45_primitive_partial",
    "Jaqmc.Sparse.Props.c45_seed",
    "Jaqmc.Sparse.Props.c45_program_example",
    "Jaqmc.Sparse.Props.c45_unary",
    "Jaqmc.Sparse.Props.c45_add_sub",
    "Jaqmc.Sparse.Props.c45_mul",
    "Jaqmc.Sparse.Props.c45_div",
    "Jaqmc.Sparse.Props.c45_reduce_sum",
    "Jaqmc.Sparse.Props.c45_gather",
    "Jaqmc.Sparse.Props.c45_dot_general",
    "Jaqmc.Sparse.Props.c45_abs_real",
    "Jaqmc.Sparse.Props.c45_abs_complex",
    "Jaqmc.Sparse.Props.c45_concat_plain_wrong",
    "Jaqmc.Sparse.Props.c45_concat_plain_raises",
    "Jaqmc.Sparse.Props.c45_empty_sum",
    "Jaqmc.Sparse.Props.c45_abs_zero",
    "Jaqmc.Sparse.Props.c45_max_tie"
   ],
   "note": "Every program over all sparse handlers (arithmetic, elementwise, shape, reductions, selection, concatenate, gather, dot_general, including all fallbacks to dense): expanding every result satisfies the dense rules. Exact field arithmetic; what a handler does when it raises is not compared. Missing, and shown not true of the code: sums over an empty axis (c45_empty_sum), plain segments in a concatenation along the owner axis (c45_concat_plain_wrong, c45_concat_plain_raises), |x| at 0 (c45_abs_zero), max/min with a plain operand at a tie (c45_max_tie)."
  },
  {
   "property": "C46",
   "status": "partial",
   "theorems": [
    "Jaqmc.Misc.Props.c46_parse_partial",
    "Jaqmc.Misc.Props.c46_list_partial",
    "Jaqmc.Misc.Props.c46_key_with_digit",
    "Jaqmc.Misc.Props.c46_format_without_digit",
    "Jaqmc.Misc.Props.c46_equals_in_format",
    "Jaqmc.Misc.Props.c46_comma_in_format"
   ],
   "note": "Round trip under the documented digit rule; four ambiguous spellings are exhibited."
  },
  {
   "property": "C47",
   "status": "partial",
   "theorems": [
    "Jaqmc.Misc.Props.c47_explicit_partial",
    "Jaqmc.Misc.Props.c47_default_partial",
    "Jaqmc.Misc.Props.c47_errors_partial",
    "Jaqmc.Misc.Props.c47_malformed",
    "Jaqmc.Misc.Props.c47_missing_import_shadowed"
   ],
   "note": "Fails when the package's own module has a missing import: an unrelated absolute module is used."
  },
  {
   "property": "C48",
   "status": "proved",
   "theorems": [
    "Jaqmc.Misc.Props.c48_backup_found",
    "Jaqmc.Misc.Props.c48_prepare",
    "Jaqmc.Misc.Props.c48_history",
    "Jaqmc.Misc.Props.c48_torn_identical"
   ],
   "note": "At every kill point; namespaces without slash. c48_torn_identical shows why the hypothesis of c48_history is needed."
  },
  {
   "property": "C49",
   "status": "partial",
   "theorems": [
    "Jaqmc.Checkpoint.Props.c49_isolated_partial",
    "Jaqmc.Checkpoint.Props.c49_unnamed_partial",
    "Jaqmc.Checkpoint.Props.c49_capture"
   ],
   "note": "Holds for stage names without glob characters; c49_capture is the failure."
  },
  {
   "property": "C50",
   "status": "partial",
   "theorems": [
    "Jaqmc.Writers.Props.c50_columns_partial",
    "Jaqmc.Writers.Props.c50_header",
    "Jaqmc.Writers.Props.c50_no_blank",
    "Jaqmc.Writers.Props.c50_misaligned"
   ],
   "note": "Holds when the set of scalar keys is constant."
  },
  {
   "property": "C51",
   "status": "partial",
   "theorems": [
    "Jaqmc.RunLoop.Props.c51_keys_reused"
   ],
   "note": "False of the code with a fixed seed and no burn-in."
  },
  {
   "property": "C52",
   "status": "proved",
   "theorems": [
    "Jaqmc.Config.Props.c52_collection"
   ],
   "note": ""
  },
  {
   "property": "C53",
   "status": "proved",
   "theorems": [
    "Jaqmc.Data.Props.c53_fully_batched"
   ],
   "note": ""
  },
  {
   "property": "C54",
   "status": "partial",
   "theorems": [
    "Jaqmc.Digest.Props.c54_completed_partial",
    "Jaqmc.Digest.Props.c54_never_later",
    "Jaqmc.Digest.Props.c54_interrupted_at_end",
    "Jaqmc.Digest.Props.c54_killed_before_digest"
   ],
   "note": "Proved when the launch that executes the last step ends by itself without a signal and no launch is killed; a signal during the last step (c54_interrupted_at_end) or a kill before the digest (c54_killed_before_digest) loses the digest for ever."
  },
  {
   "property": "C55",
   "status": "partial",
   "theorems": [
    "Jaqmc.Sampler.Props.c55_single_partial",
    "Jaqmc.Sampler.Props.c55_lockstep"
   ],
   "note": "Holds for one field per sampler; fields of equal shape under one sampler move in lockstep (c55_lockstep)."
  },
  {
   "property": "C56",
   "status": "partial",
   "theorems": [
    "Jaqmc.Sampler.Props.c56_reported_partial",
    "Jaqmc.Sampler.Props.c56_overwritten"
   ],
   "note": "Holds when names differ; two Metropolis samplers share the name pmove and one is lost."
  },
  {
   "property": "C57",
   "status": "partial",
   "theorems": [
    "Jaqmc.Geometry.Props.c57_nu",
    "Jaqmc.Geometry.Props.c57_tri_partial",
    "Jaqmc.Geometry.Props.c57_hexagonal"
   ],
   "note": "Proved for nu distances and for tri distances in non-hexagonal cells; c57_hexagonal: in a hexagonal cell the tri distance vanishes at (a1+a2)/3, where honeycomb crystals have their second atom."
  },
  {
   "property": "C58",
   "status": "partial",
   "theorems": [
    "Jaqmc.Ewald.Props.c58_formula",
    "Jaqmc.Ewald.Props.c58_translation",
    "Jaqmc.Ewald.Props.c58_recip_periodic",
    "Jaqmc.Ewald.Props.c58_periodic_partial",
    "Jaqmc.Ewald.Props.c58_relabel"
   ],
   "note": "Replacement by periodic images is proved for diagonal lattices, and for the reciprocal part of all lattices; for general lattices the minimum-image part fails (c29_far). erfc is an arbitrary function."
  },
  {
   "property": "C59",
   "status": "partial",
   "theorems": [
    "Jaqmc.Spins.Props.c59_neutral_partial",
    "Jaqmc.Spins.Props.c59_charged_rejected",
    "Jaqmc.Spins.Props.c59_electron_counts"
   ],
   "note": "Proved for neutral systems; every charged system without prescribed spins is rejected (c59_charged_rejected)."
  },
  {
   "property": "C60",
   "status": "proved",
   "theorems": [
    "Jaqmc.Spins.Props.c60_positions",
    "Jaqmc.Spins.Props.c60_supercell"
   ],
   "note": "The Gaussian noise around the centres is not modelled."
  },
  {
   "property": "C61",
   "status": "proved",
   "theorems": [
    "Jaqmc.Writers.Props.c61_master_only",
    "Jaqmc.Writers.Props.c61_once"
   ],
   "note": ""
  },
  {
   "property": "C62",
   "status": "proved",
   "theorems": [
    "Jaqmc.Wf.Props.c62_concatenate",
    "Jaqmc.Wf.Props.c62_ferminet",
    "Jaqmc.Wf.Props.c62_psiformer",
    "Jaqmc.Wf.Props.c62_lapnet",
    "Jaqmc.Wf.Props.c62_solid",
    "Jaqmc.Wf.Props.c62_swap",
    "Jaqmc.Wf.Props.c62_pauli",
    "Jaqmc.Wf.Props.c62_example"
   ],
   "note": "All parameters and sizes, exact arithmetic. Where same-spin electrons coincide every determinant is zero and logpsi is NaN (c62_pauli)."
  },
  {
   "property": "C63",
   "status": "partial",
   "theorems": [
    "Jaqmc.Wf.Props.c63_real",
    "Jaqmc.Wf.Props.c63_complex",
    "Jaqmc.Wf.Props.c63_value_partial",
    "Jaqmc.Wf.Props.c63_valueC_partial",
    "Jaqmc.Wf.Props.c63_jastrow"
   ],
   "note": "Full description of the outputs; the sum of determinants is reported exactly unless every determinant vanishes, where the code gives NaN instead of -inf."
  },
  {
   "property": "C64",
   "status": "proved",
   "theorems": [
    "Jaqmc.Wf.Props.c64_translation"
   ],
   "note": ""
  },
  {
   "property": "C65",
   "status": "proved",
   "theorems": [
    "Jaqmc.Wf.Props.c65_twist",
    "Jaqmc.Wf.Props.c65_momentum",
    "Jaqmc.Wf.Props.c65_example"
   ],
   "note": "The hypothesis on the wave vectors is what C37 gives."
  },
  {
   "property": "C66",
   "status": "partial",
   "theorems": [
    "Jaqmc.Hall.Props.c66_mhpo_factor",
    "Jaqmc.Hall.Props.c66_mhpo_partial",
    "Jaqmc.Hall.Props.c66_mhpo_odd",
    "Jaqmc.Hall.Props.c66_laughlin",
    "Jaqmc.Hall.Props.c66_free",
    "Jaqmc.Hall.Props.c66_shells",
    "Jaqmc.Hall.Props.c66_example"
   ],
   "note": "MHPO: proved for even flux_per_elec, and shown symmetric (wrong statistics) for odd flux_per_elec, which nothing rejects (c66_mhpo_odd)."
  },
  {
   "property": "C67",
   "status": "partial",
   "theorems": [
    "Jaqmc.Hall.Props.c67_mhpo",
    "Jaqmc.Hall.Props.c67_mhpo_gauge",
    "Jaqmc.Hall.Props.c67_laughlin_partial",
    "Jaqmc.Hall.Props.c67_laughlin_flux",
    "Jaqmc.Hall.Props.c67_laughlin_accepts",
    "Jaqmc.Hall.Props.c67_laughlin_wrong",
    "Jaqmc.Hall.Props.c67_laughlin_state",
    "Jaqmc.Hall.Props.c67_free_partial",
    "Jaqmc.Hall.Props.c67_lowest_level"
   ],
   "note": "MHPO proved for every flux attachment. Laughlin: the state always carries flux 3(N-1), but with cf_flux = p it is accepted for flux (2p+1)(N-1) only (c67_laughlin_wrong). Free: the full turn; the poles are not modelled (the code gives NaN there)."
  },
  {
   "property": "C68",
   "status": "proved",
   "theorems": [
    "Jaqmc.Kinetic.Props.c68_complex",
    "Jaqmc.Kinetic.Props.c68_real",
    "Jaqmc.Kinetic.Props.c68_modes",
    "Jaqmc.Kinetic.Props.c68_forward",
    "Jaqmc.Kinetic.Props.c68_forward_real"
   ],
   "note": "JAX's derivatives are Mathlib's derivative; forward mode end to end for dense forward_laplacian programs (C44)."
  },
  {
   "property": "C69",
   "status": "proved",
   "theorems": [
    "Jaqmc.Kinetic.Props.c69_hessian",
    "Jaqmc.Kinetic.Props.c69_forward",
    "Jaqmc.Kinetic.Props.c69_lowest_level",
    "Jaqmc.Kinetic.Props.c69_laughlin"
   ],
   "note": "Away from the poles, where the code divides by sin(theta)."
  },
  {
   "property": "C70",
   "status": "proved",
   "theorems": [
    "Jaqmc.Kinetic.Props.c70_forward",
    "Jaqmc.Kinetic.Props.c70_hessian",
    "Jaqmc.Kinetic.Props.c70_laughlin"
   ],
   "note": "Away from the poles."
  },
  {
   "property": "C71",
   "status": "proved",
   "theorems": [
    "Jaqmc.Ecp.Props.c71_exact",
    "Jaqmc.Ecp.Props.c71_supported",
    "Jaqmc.Ecp.Props.c71_points",
    "Jaqmc.Ecp.Props.c71_rotation",
    "Jaqmc.Ecp.Props.c71_pole"
   ],
   "note": "Surface measure of Mathlib; exact arithmetic."
  },
  {
   "property": "C72",
   "status": "partial",
   "theorems": [
    "Jaqmc.Ecp.Props.c72_unbiased_partial",
    "Jaqmc.Ecp.Props.c72_biased"
   ],
   "note": "Proved up to the degree of the rule. Beyond it the claim is false of the code: the drawn rotations are the rotations that take the pole to a uniform point about an axis in the equatorial plane, not uniform rotations; c72_biased computes the bias for octahedron_6 and x^4 (13/60 instead of 1/5, times 4 pi)."
  },
  {
   "property": "C73",
   "status": "proved",
   "theorems": [
    "Jaqmc.Ecp.Props.c73_energy",
    "Jaqmc.Ecp.Props.c73_refused",
    "Jaqmc.Ecp.Props.c73_projection",
    "Jaqmc.Ecp.Props.c73_ratio",
    "Jaqmc.Ecp.Props.c73_radial",
    "Jaqmc.Ecp.Props.c73_nearest"
   ],
   "note": "Electrons away from the atoms (the code divides by the distance)."
  },
  {
   "property": "C74",
   "status": "proved",
   "theorems": [
    "Jaqmc.SpinSquared.Props.c74_spin",
    "Jaqmc.SpinSquared.Props.c74_eigenfunction"
   ],
   "note": "Configurations where the wavefunction does not vanish."
  },
  {
   "property": "C75",
   "status": "partial",
   "theorems": [
    "Jaqmc.Wf.Props.c75_cusp",
    "Jaqmc.Wf.Props.c75_negative"
   ],
   "note": "Cusp proved for positive parameters. Nothing keeps the trained parameters positive: c75_negative shows the factor unbounded for a negative one."
  },
  {
   "property": "C76",
   "status": "proved",
   "theorems": [
    "Jaqmc.SR.Props.c76_step",
    "Jaqmc.SR.Props.c76_history",
    "Jaqmc.SR.Props.c76_standard",
    "Jaqmc.SR.Props.c76_mode",
    "Jaqmc.SR.Props.c76_lift"
   ],
   "note": "Exact arithmetic; damping at least eps; prune_inactive off, as in SROptimizer."
  },
  {
   "property": "C77",
   "status": "proved",
   "theorems": [
    "Jaqmc.SR.Props.c77_descent",
    "Jaqmc.SR.Props.c77_norm",
    "Jaqmc.SR.Props.c77_fixed",
    "Jaqmc.SR.Props.c77_plain"
   ],
   "note": "Exact arithmetic."
  },
  {
   "property": "C78",
   "status": "proved",
   "theorems": [
    "Jaqmc.SR.Props.c78_gram",
    "Jaqmc.SR.Props.c78_split"
   ],
   "note": "c78_split without adaptive damping, whose start vector depends on the order of samples."
  },
  {
   "property": "C79",
   "status": "partial",
   "theorems": [
    "Jaqmc.SR.Props.c79_condition_partial",
    "Jaqmc.SR.Props.c79_no_excess",
    "Jaqmc.SR.Props.c79_exceeds"
   ],
   "note": "Proved when the ten power iterations do not underestimate the largest eigenvalue. False in general: c79_exceeds gives, for every start vector with non-zero mean and from three samples on, scores for which the condition number exceeds any bound."
  },
  {
   "property": "C80",
   "status": "proved",
   "theorems": [
    "Jaqmc.DmcData.Props.c80_rows",
    "Jaqmc.DmcData.Props.c80_back",
    "Jaqmc.DmcData.Props.c80_continue",
    "Jaqmc.DmcData.Props.c80_recover",
    "Jaqmc.DmcData.Props.c80_limit"
   ],
   "note": "Local save path, no remote storage, empty restore_path. The random key is not part of the saved state, so a restarted run is a continuation of the saved state but not of the random stream."
  },
  {
   "property": "C81",
   "status": "proved",
   "theorems": [
    "Jaqmc.DmcData.Props.c81_files",
    "Jaqmc.DmcData.Props.c81_loss",
    "Jaqmc.DmcData.Props.c81_restart",
    "Jaqmc.DmcData.Props.c81_finish"
   ],
   "note": "As C80; save path without foreign data files at the beginning."
  },
  {
   "property": "C82",
   "status": "partial",
   "theorems": [
    "Jaqmc.DmcData.Props.c82_start_partial",
    "Jaqmc.DmcData.Props.c82_stuck"
   ],
   "note": "Proved for kills that do not hit a copy into the save path half way. Otherwise false of the code: c82_stuck shows that from then on every start fails, although older complete data exist (unlike the checkpoint manager of the main package, which skips unreadable files)."
  },
  {
   "property": "C83",
   "status": "partial",
   "theorems": [
    "Jaqmc.DmcData.Props.c83_cleanup_partial",
    "Jaqmc.DmcData.Props.c83_keeps_old"
   ],
   "note": "Never removes a needed file, because it never removes any: the argument is overwritten by an empty list before it is read."
  },
  {
   "property": "C84",
   "status": "partial",
   "theorems": [
    "Jaqmc.DmcBranch.Props.c84_weight",
    "Jaqmc.DmcBranch.Props.c84_unbiased",
    "Jaqmc.DmcBranch.Props.c84_alive",
    "Jaqmc.DmcBranch.Props.c84_copies",
    "Jaqmc.DmcBranch.Props.c84_split",
    "Jaqmc.DmcBranch.Props.c84_raises",
    "Jaqmc.DmcBranch.Props.c84_all_small",
    "Jaqmc.DmcBranch.Props.c84_round"
   ],
   "note": "All but 'always returns a population': the step raises exactly when the rounded number of pairs does not fit (c84_raises), e.g. with one walker, or with at most 19 walkers all small (c84_all_small)."
  },
  {
   "property": "C85",
   "status": "partial",
   "theorems": [
    "Jaqmc.DmcBranch.Props.c85_weight",
    "Jaqmc.DmcBranch.Props.c85_unbiased",
    "Jaqmc.DmcBranch.Props.c85_copies",
    "Jaqmc.DmcBranch.Props.c85_raises",
    "Jaqmc.DmcBranch.Props.c85_tie",
    "Jaqmc.DmcBranch.Props.c85_boundary"
   ],
   "note": "Weight and mean proved for distinct weights with 3n <= N and draws off the thresholds (almost all). False otherwise: c85_tie (tied weights, total 3.1 becomes 3.6) and c85_boundary (draw on the threshold, 4.1 becomes 3.6)."
  },
  {
   "property": "C86",
   "status": "proved",
   "theorems": [
    "Jaqmc.DmcEnergy.Props.c86_value",
    "Jaqmc.DmcEnergy.Props.c86_between",
    "Jaqmc.DmcEnergy.Props.c86_constant_offset"
   ],
   "note": ""
  },
  {
   "property": "C87",
   "status": "proved",
   "theorems": [
    "Jaqmc.DmcEnergy.Props.c87_value",
    "Jaqmc.DmcEnergy.Props.c87_bounds",
    "Jaqmc.DmcEnergy.Props.c87_ebye"
   ],
   "note": ""
  },
  {
   "property": "C88",
   "status": "proved",
   "theorems": [
    "Jaqmc.DmcEnergy.Props.c88_cutoff",
    "Jaqmc.DmcEnergy.Props.c88_clip",
    "Jaqmc.DmcEnergy.Props.c88_uncut",
    "Jaqmc.DmcEnergy.Props.c88_growth",
    "Jaqmc.DmcEnergy.Props.c88_offset",
    "Jaqmc.DmcEnergy.Props.c88_control",
    "Jaqmc.DmcEnergy.Props.c88_keep",
    "Jaqmc.DmcEnergy.Props.c88_outlier",
    "Jaqmc.DmcEnergy.Props.c88_average",
    "Jaqmc.DmcEnergy.Props.c88_average_clip"
   ],
   "note": ""
  },
  {
   "property": "C89",
   "status": "proved",
   "theorems": [
    "Jaqmc.DmcMove.Props.c89_clip",
    "Jaqmc.DmcMove.Props.c89_control",
    "Jaqmc.DmcMove.Props.c89_direction",
    "Jaqmc.DmcMove.Props.c89_step",
    "Jaqmc.DmcMove.Props.c89_drift",
    "Jaqmc.DmcMove.Props.c89_rate",
    "Jaqmc.DmcMove.Props.c89_balance",
    "Jaqmc.DmcMove.Props.c89_balance_elec",
    "Jaqmc.DmcMove.Props.c89_fixed_node",
    "Jaqmc.DmcMove.Props.c89_fixed_node_elec",
    "Jaqmc.DmcMove.Props.c89_sweep",
    "Jaqmc.DmcMove.Props.c89_age",
    "Jaqmc.DmcMove.Props.c89_age_counts"
   ],
   "note": "Exact arithmetic; 0/0 (zero or exactly radial velocity, electron on a nucleus), which the code turns into NaN and then into 0, is not modelled."
  },
  {
   "property": "C90",
   "status": "proved",
   "theorems": [
    "Jaqmc.DmcEnergy.Props.c90_target",
    "Jaqmc.DmcEnergy.Props.c90_step"
   ],
   "note": "From nine walkers per device on; below, the code pads to a float multiple, which is not modelled."
  },
  {
   "property": "C91",
   "status": "proved",
   "theorems": [
    "Jaqmc.DmcMove.Props.c91_law",
    "Jaqmc.DmcMove.Props.c91_density"
   ],
   "note": "Given that jax.random.{uniform,normal,gamma} have their documented distributions."
  },
  {
   "property": "C92",
   "status": "proved",
   "theorems": [
    "Jaqmc.Ph.Props.c92_standard",
    "Jaqmc.Ph.Props.c92_standard_complex",
    "Jaqmc.Ph.Props.c92_forward",
    "Jaqmc.Ph.Props.c92_backends",
    "Jaqmc.Ph.Props.c92_nan",
    "Jaqmc.Ph.Props.c92_cholesky",
    "Jaqmc.Ph.Props.c92_single",
    "Jaqmc.Ph.Props.c92_sufficient",
    "Jaqmc.Ph.Props.c92_forward_complex_error",
    "Jaqmc.Ph.Props.c92_forward_complex_limit"
   ],
   "note": "The forward backend supports real wavefunctions only, as its class documents; its exact error on complex ones is c92_forward_complex_error."
  },
  {
   "property": "C93",
   "status": "proved",
   "theorems": [
    "Jaqmc.Ph.Props.c93_interp",
    "Jaqmc.Ph.Props.c93_reconstruct",
    "Jaqmc.Ph.Props.c93_local",
    "Jaqmc.Ph.Props.c93_zero_order",
    "Jaqmc.Ph.Props.c93_channel",
    "Jaqmc.Ph.Props.c93_resolve"
   ],
   "note": "Parsing of the XML files is not modelled."
  },
  {
   "property": "C94",
   "status": "proved",
   "theorems": [
    "Jaqmc.LossGrad.Props.c94_gradient",
    "Jaqmc.LossGrad.Props.c94_real",
    "Jaqmc.LossGrad.Props.c94_zero_variance"
   ],
   "note": "Walkers are assumed exactly distributed by |psi|^2 and independent (the chain has this law as its invariant one, see the sampler claims). The (1 - 1/N) factor and the imaginary term are properties of the code: it subtracts the product of batch means without a conjugate."
  },
  {
   "property": "C95",
   "status": "partial",
   "theorems": [
    "Jaqmc.Density.Props.c95_cartesian",
    "Jaqmc.Density.Props.c95_spherical",
    "Jaqmc.Density.Props.c95_fractional_partial",
    "Jaqmc.Density.Props.c95_fractional_columns",
    "Jaqmc.Density.Props.c95_transposed",
    "Jaqmc.Density.Props.c95_all_counted",
    "Jaqmc.Density.Props.c95_periodic_partial",
    "Jaqmc.Density.Props.c95_not_periodic",
    "Jaqmc.Density.Props.c95_axis_order"
   ],
   "note": "The fractional density multiplies with the transpose of the inverse lattice although lattice vectors are rows: proved for symmetric lattice matrices, false for others (c95_not_periodic), where the columns take the place of the lattice vectors (c95_fractional_columns). Direction vectors are assumed non-zero (0/0 otherwise)."
  },
  {
   "property": "C96",
   "status": "partial",
   "theorems": [
    "Jaqmc.HallStats.Props.c96_angle",
    "Jaqmc.HallStats.Props.c96_step",
    "Jaqmc.HallStats.Props.c96_state",
    "Jaqmc.HallStats.Props.c96_expectation_partial",
    "Jaqmc.HallStats.Props.c96_uniform_pair",
    "Jaqmc.HallStats.Props.c96_uniform_partial",
    "Jaqmc.HallStats.Props.c96_devices"
   ],
   "note": "Proved for one device. On two or more devices the state has no device axis and the first step raises unless the number of bins is 1 or the number of devices (c96_devices). The state is never written to the digest (finalize_state is inherited)."
  },
  {
   "property": "C97",
   "status": "partial",
   "theorems": [
    "Jaqmc.HallStats.Props.c97_sample",
    "Jaqmc.HallStats.Props.c97_unbiased",
    "Jaqmc.HallStats.Props.c97_digest",
    "Jaqmc.HallStats.Props.c97_orthonormal",
    "Jaqmc.HallStats.Props.c97_orbital",
    "Jaqmc.HallStats.Props.c97_lowest_partial",
    "Jaqmc.HallStats.Props.c97_hermitian",
    "Jaqmc.HallStats.Props.c97_trace",
    "Jaqmc.HallStats.Props.c97_trace_partial",
    "Jaqmc.HallStats.Props.c97_trace_biased"
   ],
   "note": "The code clips cos(theta) to 1 - 1e-4, so its orbitals differ from the monopole harmonics near the poles: the estimate is unbiased for the clipped orbitals (c97_unbiased), which changes the matrix by factors 1 + O(1e-4 (flux+1)) (c97_lowest_partial); hermiticity and trace are exact for the exact orbitals, and the code's trace is off (c97_trace_biased)."
  },
  {
   "property": "C98",
   "status": "partial",
   "theorems": [
    "Jaqmc.HallEnergy.Props.c98_potential",
    "Jaqmc.HallEnergy.Props.c98_radius",
    "Jaqmc.HallEnergy.Props.c98_rotation",
    "Jaqmc.HallEnergy.Props.c98_permutation",
    "Jaqmc.HallEnergy.Props.c98_loss",
    "Jaqmc.HallEnergy.Props.c98_gradient_partial",
    "Jaqmc.HallEnergy.Props.c98_gradient_real",
    "Jaqmc.HallEnergy.Props.c98_phase_blind"
   ],
   "note": "The penalty enters the loss with the real part of its local value only: the loss averages to the penalised energy, but the gradient lacks 2 <Im d log psi . Im o> (c98_gradient_partial, exact), so the penalty does not act on the phase of the wavefunction (c98_phase_blind). Gradient theorems without clipping."
  },
  {
   "property": "C99",
   "status": "proved",
   "theorems": [
    "Jaqmc.Scf.Props.c99_mos",
    "Jaqmc.Scf.Props.c99_mos_value",
    "Jaqmc.Scf.Props.c99_kpoints",
    "Jaqmc.Scf.Props.c99_batch",
    "Jaqmc.Scf.Props.c99_value",
    "Jaqmc.Scf.Props.c99_bloch",
    "Jaqmc.Scf.Props.c99_antisymmetric",
    "Jaqmc.Scf.Props.c99_twist",
    "Jaqmc.Scf.Props.c99_momentum",
    "Jaqmc.Scf.Props.c99_network",
    "Jaqmc.Scf.Props.c99_lattice_bloch",
    "Jaqmc.Scf.Props.c99_truncation",
    "Jaqmc.Scf.Props.c99_gaussian",
    "Jaqmc.Scf.Props.c99_converges",
    "Jaqmc.Scf.Props.c99_evaluator_false",
    "Jaqmc.Scf.Props.c99_molecule",
    "Jaqmc.Scf.Props.c99_molecule_antisymmetric",
    "Jaqmc.Scf.Props.c99_too_few",
    "Jaqmc.Scf.Props.c99_none_occupied",
    "Jaqmc.Scf.Props.c99_example"
   ],
   "note": "The PySCF calculation (coefficients, occupations, list of images) is an arbitrary input; the localised orbitals are arbitrary functions here (C101 models them). The docstring of PBCAtomicOrbitalEvaluator claims the Bloch property for the truncated sum alone, which is false (c99_evaluator_false); PeriodicSCF restores it by wrapping. Fewer occupied orbitals than electrons: error (c99_too_few), except that a spin without any occupied orbital is silently skipped (c99_none_occupied)."
  },
  {
   "property": "C100",
   "status": "partial",
   "theorems": [
    "Jaqmc.Scf.Props.c100_mixture",
    "Jaqmc.Scf.Props.c100_endpoints",
    "Jaqmc.Scf.Props.c100_loss_molecule",
    "Jaqmc.Scf.Props.c100_loss_crystal",
    "Jaqmc.Scf.Props.c100_matched",
    "Jaqmc.Scf.Props.c100_relabel",
    "Jaqmc.Scf.Props.c100_example",
    "Jaqmc.Scf.Props.c100_split_false"
   ],
   "note": "Proved for full determinants, the default. With full_det=False, which the solid workflow accepts, the code pairs the two spin blocks with the first two determinants, and zero loss does not mean agreement (c100_split_false)."
  },
  {
   "property": "C101",
   "status": "proved",
   "theorems": [
    "Jaqmc.Gto.Props.c101_value",
    "Jaqmc.Gto.Props.c101_harmonic",
    "Jaqmc.Gto.Props.c101_laplace",
    "Jaqmc.Gto.Props.c101_orthonormal",
    "Jaqmc.Gto.Props.c101_shells",
    "Jaqmc.Gto.Props.c101_threshold",
    "Jaqmc.Gto.Props.c101_summable",
    "Jaqmc.Gto.Props.c101_example"
   ],
   "note": "Basis as given by PySCF after its normalisation; jax.scipy.special.lpmn_values taken to be the normalised associated Legendre functions with the Condon-Shortley phase. Every contraction must have a weight above 1e-12 (otherwise the gather of a missing segment clamps); weights up to 1e-12 are omitted by the code, with the error of c101_threshold."
  },
  {
   "property": "C102",
   "status": "proved",
   "theorems": [
    "Jaqmc.LegacyLoss.Props.c102_loss",
    "Jaqmc.LegacyLoss.Props.c102_distribution",
    "Jaqmc.LegacyLoss.Props.c102_eigenfunction_nan",
    "Jaqmc.LegacyLoss.Props.c102_outliers_left",
    "Jaqmc.LegacyLoss.Props.c102_partition"
   ],
   "note": "If all finite energies are equal (an exact eigenfunction), removing outliers removes every walker and the loss is NaN (c102_eigenfunction_nan)."
  },
  {
   "property": "C103",
   "status": "partial",
   "theorems": [
    "Jaqmc.LegacyLoss.Props.c103_gradient",
    "Jaqmc.LegacyLoss.Props.c103_clipped",
    "Jaqmc.LegacyLoss.Props.c103_empty_device_nan",
    "Jaqmc.LegacyLoss.Props.c103_half",
    "Jaqmc.LegacyLoss.Props.c103_masked_shrinks",
    "Jaqmc.LegacyLoss.Props.c103_uneven",
    "Jaqmc.LegacyLoss.Props.c103_nan_matters"
   ],
   "note": "Exact: without clipping the gradient is the covariance times the fraction of walkers that count (c103_gradient), since the sum is divided by the full batch size, so it shrinks when walkers are masked (c103_masked_shrinks). With clipping each device divides by its own count, so the average is not over walkers if the counts differ (c103_uneven) and NaN if a device keeps none (c103_empty_device_nan); NaN energies enter the median as 0 (c103_nan_matters). The gradient is half of that of LossAndGrad (c103_half)."
  },
  {
   "property": "C104",
   "status": "proved",
   "theorems": [
    "Jaqmc.LegacyLoss.Props.c104_same",
    "Jaqmc.LegacyLoss.Props.c104_spin_square",
    "Jaqmc.LegacyLoss.Props.c104_eigenfunction",
    "Jaqmc.LegacyLoss.Props.c104_expectation",
    "Jaqmc.LegacyLoss.Props.c104_cycle",
    "Jaqmc.LegacyLoss.Props.c104_polarised",
    "Jaqmc.LegacyLoss.Props.c104_approx"
   ],
   "note": ""
  },
  {
   "property": "C105",
   "status": "partial",
   "theorems": [
    "Jaqmc.LegacyLoss.Props.c105_unbound",
    "Jaqmc.LegacyLoss.Props.c105_plain",
    "Jaqmc.LegacyLoss.Props.c105_deviation",
    "Jaqmc.LegacyLoss.Props.c105_equal_nan",
    "Jaqmc.LegacyLoss.Props.c105_eigenfunction_nan",
    "Jaqmc.LegacyLoss.Props.c105_step_unchanged"
   ],
   "note": "Exact for all settings; an exact spin eigenfunction gives NaN with the default outlier removal (c105_eigenfunction_nan), some settings raise UnboundLocalError (c105_unbound), and the step is not advanced by the loss, although documented (c105_step_unchanged)."
  },
  {
   "property": "C106",
   "status": "proved",
   "theorems": [
    "Jaqmc.LegacyLoss.Props.c106_self_adjoint",
    "Jaqmc.LegacyLoss.Props.c106_batch",
    "Jaqmc.LegacyLoss.Props.c106_derivative"
   ],
   "note": ""
  },
  {
   "property": "C107",
   "status": "proved",
   "theorems": [
    "Jaqmc.LegacyLoss.Props.c107_div",
    "Jaqmc.LegacyLoss.Props.c107_div_clipped",
    "Jaqmc.LegacyLoss.Props.c107_batch",
    "Jaqmc.LegacyLoss.Props.c107_norm",
    "Jaqmc.LegacyLoss.Props.c107_self",
    "Jaqmc.LegacyLoss.Props.c107_gradient",
    "Jaqmc.LegacyLoss.Props.c107_sum",
    "Jaqmc.LegacyLoss.Props.c107_expectation",
    "Jaqmc.LegacyLoss.Props.c107_range",
    "Jaqmc.LegacyLoss.Props.c107_derivative",
    "Jaqmc.LegacyLoss.Props.c107_node_dropped"
   ],
   "note": "Batch theorems for walkers where neither wavefunction vanishes; a walker on a node is left out instead of counted with quotient 0 (c107_node_dropped). Targets without a weight are ignored, no weights at all (the default configuration) raise (c107_sum)."
  },
  {
   "property": "C108",
   "status": "proved",
   "theorems": [
    "Jaqmc.LegacyLoss.Props.c108_total",
    "Jaqmc.LegacyLoss.Props.c108_gradient",
    "Jaqmc.LegacyLoss.Props.c108_energy",
    "Jaqmc.LegacyLoss.Props.c108_state_dropped",
    "Jaqmc.LegacyLoss.Props.c108_state",
    "Jaqmc.LegacyLoss.Props.c108_overlap_zero",
    "Jaqmc.LegacyLoss.Props.c108_kwargs",
    "Jaqmc.LegacyLoss.Props.c108_one_component",
    "Jaqmc.LegacyLoss.Props.c108_unknown_dropped",
    "Jaqmc.LegacyLoss.Props.c108_required",
    "Jaqmc.LegacyLoss.Props.c108_objective"
   ],
   "note": "A keyword argument no component names is dropped silently (c108_unknown_dropped)."
  },
  {
   "property": "C109",
   "status": "proved",
   "theorems": [
    "Jaqmc.MolEnergy.Props.c109_potential",
    "Jaqmc.MolEnergy.Props.c109_symmetry",
    "Jaqmc.MolEnergy.Props.c109_atoms",
    "Jaqmc.MolEnergy.Props.c109_refused",
    "Jaqmc.MolEnergy.Props.c109_choice",
    "Jaqmc.MolEnergy.Props.c109_settings",
    "Jaqmc.MolEnergy.Props.c109_routing",
    "Jaqmc.MolEnergy.Props.c109_energy",
    "Jaqmc.MolEnergy.Props.c109_all_electron"
   ],
   "note": "The effective core energy itself is C73; the radial tables of the pseudo-Hamiltonian are C93. The energy theorem is for real wavefunctions (sign +-1), the kind the molecule app produces."
  },
  {
   "property": "C110",
   "status": "proved",
   "theorems": [
    "Jaqmc.Hydrogen.Props.c110_local",
    "Jaqmc.Hydrogen.Props.c110_constant",
    "Jaqmc.Hydrogen.Props.c110_energy",
    "Jaqmc.Hydrogen.Props.c110_gradient",
    "Jaqmc.Hydrogen.Props.c110_init"
   ],
   "note": ""
  },
  {
   "property": "C111",
   "status": "proved",
   "theorems": [
    "Jaqmc.Presets.Props.c111_snap",
    "Jaqmc.Presets.Props.c111_cell",
    "Jaqmc.Presets.Props.c111_accepted",
    "Jaqmc.Presets.Props.c111_volume",
    "Jaqmc.Presets.Props.c111_rock_salt",
    "Jaqmc.Presets.Props.c111_rock_salt_neighbours",
    "Jaqmc.Presets.Props.c111_chain",
    "Jaqmc.Presets.Props.c111_formula",
    "Jaqmc.Presets.Props.c111_diatomic",
    "Jaqmc.Presets.Props.c111_alkane",
    "Jaqmc.Presets.Props.c111_alkane_spins",
    "Jaqmc.Presets.Props.c111_alkane_refused"
   ],
   "note": "The vacuum separation of the chain is in bohr whatever the unit of the bond length (c111_chain). A cell is refused when its normalised squared volume is at most 1e-8 sin^2 gamma (c111_accepted)."
  },
  {
   "property": "C112",
   "status": "partial",
   "theorems": [
    "Jaqmc.SolidEnergy.Props.c112_aligned",
    "Jaqmc.SolidEnergy.Props.c112_crystal",
    "Jaqmc.SolidEnergy.Props.c112_electrons",
    "Jaqmc.SolidEnergy.Props.c112_potential",
    "Jaqmc.SolidEnergy.Props.c112_routing",
    "Jaqmc.SolidEnergy.Props.c112_energy",
    "Jaqmc.SolidEnergy.Props.c112_refused",
    "Jaqmc.SolidEnergy.Props.c112_settings",
    "Jaqmc.SolidEnergy.Props.c112_basis",
    "Jaqmc.SolidEnergy.Props.c112_checks",
    "Jaqmc.SolidEnergy.Props.c112_kpts_partial",
    "Jaqmc.SolidEnergy.Props.c112_bloch_partial"
   ],
   "note": "The limits of C36 (positive entry in every column, determinant below 100000) and C37 (symmetric supercell matrix for the k-points) carry over; there the counterexamples are. The effective core energy itself is C73."
  },
  {
   "property": "C113",
   "status": "proved",
   "theorems": [
    "Jaqmc.LegacyPp.Props.c113_kinetic",
    "Jaqmc.LegacyPp.Props.c113_potential",
    "Jaqmc.LegacyPp.Props.c113_ph",
    "Jaqmc.LegacyPp.Props.c113_ph_nan",
    "Jaqmc.LegacyPp.Props.c113_tables",
    "Jaqmc.LegacyPp.Props.c113_p_ignored"
   ],
   "note": "The p channel of the tables is not looked at (c113_p_ignored): for channels that are not those of a pseudo-Hamiltonian the tables depend on s and d only."
  },
  {
   "property": "C114",
   "status": "proved",
   "theorems": [
    "Jaqmc.LegacyPp.Props.c114_legendre",
    "Jaqmc.LegacyPp.Props.c114_quadrature",
    "Jaqmc.LegacyPp.Props.c114_projection",
    "Jaqmc.LegacyPp.Props.c114_atoms",
    "Jaqmc.LegacyPp.Props.c114_nearest",
    "Jaqmc.LegacyPp.Props.c114_energy",
    "Jaqmc.LegacyPp.Props.c114_refused",
    "Jaqmc.LegacyPp.Props.c114_labels_ignored"
   ],
   "note": "The ordering hypothesis is needed: channels count by position and the angular momenta in the tables are never read (c114_labels_ignored)."
  },
  {
   "property": "C115",
   "status": "partial",
   "theorems": [
    "Jaqmc.LegacyPp.Props.c115_info",
    "Jaqmc.LegacyPp.Props.c115_routing",
    "Jaqmc.LegacyPp.Props.c115_total",
    "Jaqmc.LegacyPp.Props.c115_given",
    "Jaqmc.LegacyPp.Props.c115_absent",
    "Jaqmc.LegacyPp.Props.c115_optim",
    "Jaqmc.LegacyPp.Props.c115_both_limit",
    "Jaqmc.LegacyPp.Props.c115_optim_limit"
   ],
   "note": "An element in both lists is in the pseudo-Hamiltonian twice (c115_both_limit). The incremental variant leaves out the hybrid elements (c115_optim_limit); without them it is the same energy."
  },
  {
   "property": "C116",
   "status": "partial",
   "theorems": [
    "Jaqmc.Kfac.Props.c116_split",
    "Jaqmc.Kfac.Props.c116_stats",
    "Jaqmc.Kfac.Props.c116_refused",
    "Jaqmc.Kfac.Props.c116_psd",
    "Jaqmc.Kfac.Props.c116_derivative",
    "Jaqmc.Kfac.Props.c116_scale",
    "Jaqmc.Kfac.Props.c116_scale_partial",
    "Jaqmc.Kfac.Props.c116_exact",
    "Jaqmc.Kfac.Props.c116_block_partial",
    "Jaqmc.Kfac.Props.c116_dense",
    "Jaqmc.Kfac.Props.c116_dense_batch",
    "Jaqmc.Kfac.Props.c116_patterns_partial"
   ],
   "note": "A layer contracting several axes is scaled too much, by the sizes of all but the last (c116_block_partial). A layer without repeated axes but with two input or output axes is recognised and then fails (c116_patterns_partial)."
  },
  {
   "property": "C117",
   "status": "partial",
   "theorems": [
    "Jaqmc.Kfac.Props.c117_scale_shift",
    "Jaqmc.Kfac.Props.c117_history",
    "Jaqmc.Kfac.Props.c117_psd",
    "Jaqmc.Kfac.Props.c117_generic_partial",
    "Jaqmc.Kfac.Props.c117_generic_counterexample"
   ],
   "note": "For parameters of unknown structure only one derivative for the whole batch is available: the estimate is the square of the summed derivative (c117_generic_counterexample)."
  },
  {
   "property": "C118",
   "status": "partial",
   "theorems": [
    "Jaqmc.Kfac.Props.c118_vjp",
    "Jaqmc.Kfac.Props.c118_aux",
    "Jaqmc.Kfac.Props.c118_restored",
    "Jaqmc.Kfac.Props.c118_init",
    "Jaqmc.Kfac.Props.c118_step",
    "Jaqmc.Kfac.Props.c118_first_leaf_counterexample"
   ],
   "note": "Only the first output is asked for its type: c118_vjp needs it complex or all outputs real (c118_first_leaf_counterexample). The preconditioner and the norm constraint belong to kfac_jax and are modelled by their documentation."
  },
  {
   "property": "C119",
   "status": "partial",
   "theorems": [
    "Jaqmc.Attention.Props.c119_rule",
    "Jaqmc.Attention.Props.c119_fallback",
    "Jaqmc.Attention.Props.c119_single",
    "Jaqmc.Attention.Props.c119_axis_counterexample"
   ],
   "note": "Needs the particle axis to be the first axis of the tracked positions: otherwise the fast path is still taken and its rows are in the wrong order (c119_axis_counterexample). Value arguments with pairwise support, and zero features per head (division by zero), are outside the model."
  },
  {
   "property": "C120",
   "status": "partial",
   "theorems": [
    "Jaqmc.CustomLap.Props.c120_vmap",
    "Jaqmc.CustomLap.Props.c120_evaluate",
    "Jaqmc.CustomLap.Props.c120_sparse_vmap_refused",
    "Jaqmc.CustomLap.Props.c120_call",
    "Jaqmc.CustomLap.Props.c120_tracing",
    "Jaqmc.CustomLap.Props.c120_registry"
   ],
   "note": "A mapped argument with a sparse Jacobian is refused although the automatic derivation could handle it (c120_sparse_vmap_refused). Empty mapped axes and rules returning sparse or untracked values are outside the theorem."
  },
  {
   "property": "C121",
   "status": "partial",
   "theorems": [
    "Jaqmc.Prune.Props.c121_loop_free",
    "Jaqmc.Prune.Props.c121_sound_partial",
    "Jaqmc.Prune.Props.c121_zero_derivative_partial",
    "Jaqmc.Prune.Props.c121_unread",
    "Jaqmc.Prune.Props.c121_indices",
    "Jaqmc.Prune.Props.c121_scan_counterexample",
    "Jaqmc.Prune.Props.c121_while_counterexample"
   ],
   "note": "c121_loop_free is the whole claim for programs without loops. With loops it needs Settled: the analysis looks at one iteration of a scan, and does not shift positions by the constants of a while, so parameters can be lost (two counterexamples)."
  },
  {
   "property": "C122",
   "status": "proved",
   "theorems": [
    "Jaqmc.PruneSR.Props.c122_same",
    "Jaqmc.PruneSR.Props.c122_restrict",
    "Jaqmc.PruneSR.Props.c122_pruned_stays",
    "Jaqmc.PruneSR.Props.c122_all_pruned",
    "Jaqmc.PruneSR.Props.c122_clip_counterexample"
   ],
   "note": "Exact arithmetic, cho_solve is the exact solution. The active indices are distinct (c121_indices)."
  },
  {
   "property": "C123",
   "status": "proved",
   "theorems": [
    "Jaqmc.Replay.Props.c123_replay",
    "Jaqmc.Replay.Props.c123_replay_no_presets",
    "Jaqmc.Replay.Props.c123_recorded",
    "Jaqmc.Replay.Props.c123_reopened_section_differs",
    "Jaqmc.Replay.Props.c123_overlapping_reads_differ"
   ],
   "note": "The conversions of classes are arbitrary functions that satisfy LawfulClass (order of keys irrelevant, given options kept, loading what was dumped changes nothing); one such class is shown. YAML is taken to be lossless."
  },
  {
   "property": "C124",
   "status": "proved",
   "theorems": [
    "Jaqmc.ConfigClass.Props.c124_record_lawful",
    "Jaqmc.ConfigClass.Props.c124_module_field_lawful",
    "Jaqmc.ConfigClass.Props.c124_choice",
    "Jaqmc.ConfigClass.Props.c124_options",
    "Jaqmc.ConfigClass.Props.c124_direct",
    "Jaqmc.ConfigClass.Props.c124_empty_section",
    "Jaqmc.ConfigClass.Props.c124_file_module_not_reloadable",
    "Jaqmc.ConfigClass.Props.c124_kwargs_reach_other_class",
    "Jaqmc.ConfigClass.Props.c124_instance_options_reach_other_class"
   ],
   "note": "pyserde by its documentation (unknown keys refused, fields loaded one by one); the conversion of a plain field is an arbitrary lawful function. c124_record_lawful and c124_module_field_lawful discharge the class hypothesis of C123."
  },
  {
   "property": "C125",
   "status": "proved",
   "theorems": [
    "Jaqmc.Callable.Props.c125_precedence",
    "Jaqmc.Callable.Props.c125_unknown_option",
    "Jaqmc.Callable.Props.c125_unknown_keyword",
    "Jaqmc.Callable.Props.c125_positional",
    "Jaqmc.Callable.Props.c125_transparent",
    "Jaqmc.Callable.Props.c125_optax_refused",
    "Jaqmc.Callable.Props.c125_optax_init"
   ],
   "note": "Calls by the Python language reference. optax functions have no positional-only parameters (hypothesis of c125_optax_init)."
  },
  {
   "property": "C126",
   "status": "proved",
   "theorems": [
    "Jaqmc.Keys.Props.c126_training",
    "Jaqmc.Keys.Props.c126_evaluation",
    "Jaqmc.Keys.Props.c126_evaluation_fresh",
    "Jaqmc.Keys.Props.c126_shipped",
    "Jaqmc.Keys.Props.c126_calls",
    "Jaqmc.Keys.Props.c126_init_key_shared",
    "Jaqmc.Keys.Props.c126_fields_share_key"
   ],
   "note": "Keys are derivation paths (split and fold_in collision-free, except that a child does not depend on the number of children). Initial parameters (flax) and KFAC are opaque: they receive one key each. A resumed process with the same seed starts again from the first keys: C51. Samplers with random initial state and samplers of several fields are excluded by hypothesis, with counterexamples."
  },
  {
   "property": "C127",
   "status": "proved",
   "theorems": [
    "Jaqmc.Handover.Props.c127_compatible",
    "Jaqmc.Handover.Props.c127_handover",
    "Jaqmc.Handover.Props.c127_same_period",
    "Jaqmc.Handover.Props.c127_collapse",
    "Jaqmc.Handover.Props.c127_blow_up",
    "Jaqmc.Handover.Props.c127_collapse_limit"
   ],
   "note": "Nothing in the code compares the length of the inherited history with adapt_frequency (the checkpoint is loaded with the shapes in the file); c127_collapse and c127_blow_up are the consequences. The bounds on acceptance ratios assumed there are c25_ratio."
  },
  {
   "property": "C128",
   "status": "proved",
   "theorems": [
    "Jaqmc.TrainStep.Props.c128_burn_in",
    "Jaqmc.TrainStep.Props.c128_training",
    "Jaqmc.TrainStep.Props.c128_no_error",
    "Jaqmc.TrainStep.Props.c128_evaluation",
    "Jaqmc.TrainStep.Props.c128_monitor",
    "Jaqmc.TrainStep.Props.c128_space_ignored",
    "Jaqmc.TrainStep.Props.c128_imaginary_ignored",
    "Jaqmc.TrainStep.Props.c128_gradient_ignored"
   ],
   "note": "Sample plan, estimators and optimizer are arbitrary functions (their own properties are C19, C24-C27, C76, C94 and others). Checkpoints, signals and crashes around this loop are C07-C10."
  },
  {
   "property": "C129",
   "status": "partial",
   "theorems": [
    "Jaqmc.LegacyInit.Props.c129_assigned",
    "Jaqmc.LegacyInit.Props.c129_charged",
    "Jaqmc.LegacyInit.Props.c129_derived",
    "Jaqmc.LegacyInit.Props.c129_odd_core",
    "Jaqmc.LegacyInit.Props.c129_ends",
    "Jaqmc.LegacyInit.Props.c129_never",
    "Jaqmc.LegacyInit.Props.c129_kept",
    "Jaqmc.LegacyInit.Props.c129_positions",
    "Jaqmc.LegacyInit.Props.c129_length",
    "Jaqmc.LegacyInit.Props.c129_extra_dropped"
   ],
   "note": "Partial because the wanted claim (a call returns, with the requested electrons) is false: c129_never and c129_extra_dropped. What is true is proved without bounds. The random generators are arbitrary streams; the lapnet classes Atom and Element are records."
  },
  {
   "property": "C130",
   "status": "partial",
   "theorems": [
    "Jaqmc.DmcRun.Props.c130_history",
    "Jaqmc.DmcRun.Props.c130_time_step",
    "Jaqmc.DmcRun.Props.c130_rejected",
    "Jaqmc.DmcRun.Props.c130_settings_ignored",
    "Jaqmc.DmcRun.Props.c130_branch",
    "Jaqmc.DmcRun.Props.c130_healthy",
    "Jaqmc.DmcRun.Props.c130_rejected_counts"
   ],
   "note": "Partial because the documented claim (rejected attempts leave no trace, the two arguments work) is false: c130_rejected_counts, c130_settings_ignored. Reals for floats (so no NaN energies); walker moves arbitrary (C88, C89); exceptions end the run here, recovery is C80-C82; soundness of the fixed-size branching is C85."
  },
  {
   "property": "C131",
   "status": "proved",
   "theorems": [
    "Jaqmc.Annotate.Props.c131_only_comments",
    "Jaqmc.Annotate.Props.c131_annotated",
    "Jaqmc.Annotate.Props.c131_comment_line",
    "Jaqmc.Annotate.Props.c131_space_in_key"
   ],
   "note": "Whitespace is ASCII whitespace; that YAML ignores comment lines between the lines of a block mapping, and the block style of yaml.dump (two spaces per level), are part of the trusted base."
  },
  {
   "property": "C132",
   "status": "proved",
   "theorems": [
    "Jaqmc.LogRun.Props.c132_lines",
    "Jaqmc.LogRun.Props.c132_warnings",
    "Jaqmc.LogRun.Props.c132_time"
   ],
   "note": "Formatting of values is not modelled (name, value and format are); times are rationals."
  },
  {
   "property": "C133",
   "status": "proved",
   "theorems": [
    "Jaqmc.Sharded.Props.c133_start",
    "Jaqmc.Sharded.Props.c133_saved_iff",
    "Jaqmc.Sharded.Props.c133_same_devices",
    "Jaqmc.Sharded.Props.c133_other_devices",
    "Jaqmc.Sharded.Props.c133_histogram"
   ],
   "note": "Arrays are their rows; device numbering process by process, equally many devices per process, and what device_put, np.asanyarray and make_array_from_process_local_data do to rows (including when they fail) are part of the trusted base. Histogram in exact arithmetic."
  },
  {
   "property": "C134",
   "status": "proved",
   "theorems": [
    "Jaqmc.ImagTime.Props.c134_direction",
    "Jaqmc.ImagTime.Props.c134_real",
    "Jaqmc.ImagTime.Props.c134_clipped",
    "Jaqmc.ImagTime.Props.c134_eigenstate",
    "Jaqmc.ImagTime.Props.c134_scores"
   ],
   "note": "For robust_gamma=None without score clipping (other values of robust_gamma are described by c76_mode); exact arithmetic; jax.grad is the derivative. The linear term comes from the missing conjugate of the baseline (C22)."
  },
  {
   "property": "C135",
   "status": "proved",
   "theorems": [
    "Jaqmc.Average.Props.c135_law",
    "Jaqmc.Average.Props.c135_energy",
    "Jaqmc.Average.Props.c135_variational",
    "Jaqmc.Average.Props.c135_eigenstate",
    "Jaqmc.Average.Props.c135_gaussian",
    "Jaqmc.Average.Props.c135_default",
    "Jaqmc.Average.Props.c135_exists",
    "Jaqmc.Average.Props.c135_adaptation"
   ],
   "note": "Exact arithmetic; one sampled field; no claim about how fast walkers reach the distribution. The generator is idealised: independent draws at different keys. c135_adaptation: a two-place example in which the width adaptation takes the walkers out of the distribution."
  },
  {
   "property": "C136",
   "status": "proved",
   "theorems": [
    "Jaqmc.Geometry.Props.Sphere.c136_area",
    "Jaqmc.Geometry.Props.Sphere.c136_move",
    "Jaqmc.Geometry.Props.Sphere.c136_defined",
    "Jaqmc.Geometry.Props.Sphere.c136_sphere",
    "Jaqmc.Geometry.Props.Sphere.c136_cell",
    "Jaqmc.Geometry.Props.Sphere.c136_sphere_energy",
    "Jaqmc.Geometry.Props.Sphere.c136_cell_energy",
    "Jaqmc.Geometry.Props.Sphere.c136_exists"
   ],
   "note": "Exact arithmetic. c136_area says that the measure used is the area of the sphere. A move that lands exactly on a pole is NaN in the code; c136_defined: it has probability zero."
  },
  {
   "property": "C137",
   "status": "proved",
   "theorems": [
    "Jaqmc.Average.Props.c137_converge",
    "Jaqmc.Average.Props.c137_cell",
    "Jaqmc.Average.Props.c137_exists",
    "Jaqmc.Average.Props.c137_zero"
   ],
   "note": "Exact arithmetic, ideal random numbers, and a width that is not adapted during the steps counted (Steady). c137_converge is the same for any proposal that covers the whole space; for molecules the space is unbounded and no such rate exists in general."
  },
  {
   "property": "C138",
   "status": "proved",
   "theorems": [
    "Jaqmc.Average.Props.c138_converge",
    "Jaqmc.Average.Props.c138_random",
    "Jaqmc.Average.Props.c138_reported",
    "Jaqmc.Average.Props.c138_molecule",
    "Jaqmc.Average.Props.c138_solid",
    "Jaqmc.Average.Props.c138_sphere",
    "Jaqmc.Average.Props.c138_caps",
    "Jaqmc.Average.Props.c138_zero"
   ],
   "note": "Exact arithmetic, ideal random numbers, and a width that is not adapted during the steps counted (Steady). No rate is claimed."
  },
  {
   "property": "C139",
   "status": "proved",
   "theorems": [
    "Jaqmc.Average.Props.c139_average",
    "Jaqmc.Average.Props.c139_energy",
    "Jaqmc.Average.Props.c139_molecule",
    "Jaqmc.Average.Props.c139_solid",
    "Jaqmc.Average.Props.c139_sphere",
    "Jaqmc.Average.Props.c139_not_uniform"
   ],
   "note": "Exact arithmetic, ideal random numbers, and a width that is not adapted during the steps counted (Steady). No rate is claimed."
  },
  {
   "property": "C140",
   "status": "proved",
   "theorems": [
    "Jaqmc.Average.Props.c140_bounds",
    "Jaqmc.Average.Props.c140_expected",
    "Jaqmc.Average.Props.c140_scatter",
    "Jaqmc.Average.Props.c140_residual",
    "Jaqmc.Average.Props.c140_eigenstates",
    "Jaqmc.Average.Props.c140_complex",
    "Jaqmc.Average.Props.c140_exists",
    "Jaqmc.Average.Props.c140_default"
   ],
   "note": "Exact arithmetic, ideal random numbers, and a width that is not adapted during the steps counted (Steady). The failure for complex energies is part of the statement and proved (c140_complex)."
  },
  {
   "property": "C141",
   "status": "proved",
   "theorems": [
    "Jaqmc.Average.Props.run_independent",
    "Jaqmc.Average.Props.c141_sample",
    "Jaqmc.Average.Props.c141_gradient",
    "Jaqmc.Average.Props.c141_accurate",
    "Jaqmc.Average.Props.c141_burn_in",
    "Jaqmc.Average.Props.c141_training",
    "Jaqmc.Average.Props.c141_molecule",
    "Jaqmc.Average.Props.c141_solid",
    "Jaqmc.Average.Props.c141_sphere",
    "Jaqmc.Average.Props.c141_copies",
    "Jaqmc.Average.Props.c141_exists"
   ],
   "note": "Exact arithmetic, ideal random numbers, and a width that is not adapted during the steps counted (Steady); for one parameter, no NaN; the parameters do not change during the sampling steps counted."
  },
  {
   "property": "C142",
   "status": "proved",
   "theorems": [
    "Jaqmc.Average.Props.trainRun_past",
    "Jaqmc.Average.Props.spread_law",
    "Jaqmc.Average.Props.spread_mixes",
    "Jaqmc.Average.Props.c142_batch",
    "Jaqmc.Average.Props.trainWidth_reachable",
    "Jaqmc.Average.Props.c142_solid",
    "Jaqmc.Average.Props.c142_solid_adapting",
    "Jaqmc.Average.Props.c142_exists"
   ],
   "note": "Exact arithmetic, ideal random numbers, no NaN; nothing but the sampler draws random numbers; for proposals that go everywhere at one rate (solids): molecules are not covered, since there the rate depends on the start."
  },
  {
   "property": "C143",
   "status": "proved",
   "theorems": [
    "Jaqmc.Average.Props.descent_core",
    "Jaqmc.Average.Props.c143_descent",
    "Jaqmc.Average.Props.c143_solid",
    "Jaqmc.Average.Props.hill_landscape",
    "Jaqmc.Average.Props.hill_spread"
   ],
   "note": "Exact arithmetic, ideal random numbers, no NaN, clipping off, sgd without momentum, real wavefunctions with bounded log-derivatives and local energies; for proposals that go everywhere at one rate (solids)."
  },
  {
   "property": "C144",
   "status": "proved",
   "theorems": [
    "Jaqmc.Average.Props.loss_core",
    "Jaqmc.Average.Props.c144_loss",
    "Jaqmc.Average.Props.c144_solidJaqmc.Average.TrainLoss.loss_value",
    "Jaqmc.Average.TrainLoss.sample_square"
   ],
   "note": "Exact arithmetic, ideal random numbers, no NaN, bounded local energies; nothing but the sampler draws random numbers; for proposals that go everywhere at one rate (solids)."
  },
  {
   "property": "C145",
   "status": "proved",
   "theorems": [
    "Jaqmc.Average.Props.c145_rates",
    "Jaqmc.Average.Props.c145_schedule",
    "Jaqmc.Average.Props.c145_halt",
    "Jaqmc.Average.Props.rates_enough",
    "Jaqmc.Average.Props.standard_unbounded",
    "Jaqmc.Average.Props.standard_vanishes",
    "Jaqmc.Average.Props.standard_summable"
   ],
   "note": "Exact arithmetic, ideal random numbers, no NaN, clipping off, sgd without momentum, real wavefunctions with bounded log-derivatives and local energies; solids."
  },
  {
   "property": "C146",
   "status": "proved",
   "theorems": [
    "Jaqmc.Average.Props.c146_step",
    "Jaqmc.Average.Props.c146_slow",
    "Jaqmc.Average.Props.c146_exact",
    "Jaqmc.Average.Props.c146_sr",
    "Jaqmc.Average.Props.c146_momentum",
    "Jaqmc.Average.Props.ring_near"
   ],
   "note": "Exact arithmetic, no NaN; one sampled field. Nothing is assumed of the random numbers. optax's sgd without momentum, and the SR optimizer of the repository."
  },
  {
   "property": "C147",
   "status": "proved",
   "theorems": [
    "Jaqmc.DmcRun.Props.c147_start",
    "Jaqmc.DmcRun.Props.c147_fair",
    "Jaqmc.DmcRun.Props.c147_fair_fix",
    "Jaqmc.DmcRun.Props.c147_idle",
    "Jaqmc.DmcRun.Props.c147_idle_fix",
    "Jaqmc.DmcRun.Props.c147_between",
    "Jaqmc.DmcRun.Props.c147_exact",
    "Jaqmc.DmcRun.Props.c147_still"
   ],
   "note": "Exact arithmetic, no NaN. The moves are arbitrary functions of walkers, key, offset and estimator; their energies and weight growth are the hypotheses. No checkpoints."
  },
  {
   "property": "C148",
   "status": "proved",
   "theorems": [
    "Jaqmc.Wandb.Props.c148_history",
    "Jaqmc.Wandb.Props.c148_stage",
    "Jaqmc.Wandb.Props.c148_init",
    "Jaqmc.Wandb.Props.c148_complex"
   ],
   "note": "The wandb package is modelled by its documented behaviour (init makes a run active, finish leaves none active); failures inside it are not modelled."
  },
  {
   "property": "C149",
   "status": "proved",
   "theorems": [
    "Jaqmc.DmcRun.Props.c149_growth",
    "Jaqmc.DmcRun.Props.c149_control",
    "Jaqmc.DmcRun.Props.c149_returns",
    "Jaqmc.DmcRun.Props.c149_steps",
    "Jaqmc.DmcRun.Props.c149_rates",
    "Jaqmc.DmcRun.Props.c149_ebye"
   ],
   "note": "About an exact guide, a branching that keeps the total weight (shown of the repository's own in C130) and exact arithmetic, as the statement says."
  },
  {
   "property": "C150",
   "status": "partial",
   "theorems": [
    "Jaqmc.Cli.Props.c150_dry",
    "Jaqmc.Cli.Props.c150_same",
    "Jaqmc.Cli.Props.c150_run",
    "Jaqmc.Cli.Props.c150_distributed",
    "Jaqmc.Cli.Props.c150_saved",
    "Jaqmc.Cli.Props.c150_others"
   ],
   "note": "Partial because the wanted claim (a dry run predicts the run) is false for configurations with the section 'distributed' (c150_distributed, c150_saved); c150_same is the claim for all others. The option parser, the YAML text and failures of the connection are not modelled."
  }
 ]
}