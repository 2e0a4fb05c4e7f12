{
 "claims": [
  {
   "property": "C01",
   "status": "proved",
   "theorems": [
    "CasSph.C01_balance_similarity"
   ],
   "note": "balance() only applies a power-of-two diagonal similarity"
  },
  {
   "property": "C02",
   "status": "proved",
   "theorems": [
    "CasSph.C02_balance_terminates"
   ],
   "note": "balance() always returns for conv < 1"
  },
  {
   "property": "C03",
   "status": "proved",
   "theorems": [
    "CasSph.C03_balance_balanced"
   ],
   "note": "balance() returns a balanced matrix"
  },
  {
   "property": "C04",
   "status": "proved",
   "theorems": [
    "CasSph.C04_balance_diverges"
   ],
   "note": "balance() hangs for conv > 1"
  },
  {
   "property": "C05",
   "status": "proved",
   "theorems": [
    "CasSph.C05_balanced_slogdet",
    "CasSph.C05_balanced_slogdet_any",
    "CasSph.C05_sln_det_3d",
    "CasSph.C05_shape_error"
   ],
   "note": "balanced_slogdet and sln_det_3d compute ln|det(1-M)|"
  },
  {
   "property": "C06",
   "status": "proved",
   "theorems": [
    "CasSph.C06_blockdiagonal",
    "CasSph.C06_blockdiagonal_one",
    "CasSph.C06_shape_error"
   ],
   "note": "sln_det_blockdiagonal adds the two polarisation determinants"
  },
  {
   "property": "C07",
   "status": "proved",
   "theorems": [
    "CasSph.C07_inverse",
    "CasSph.C07_linalg_error",
    "CasSph.C07_shape_error"
   ],
   "note": "inv_3d_blockmatrix returns the inverse or raises"
  },
  {
   "property": "C08",
   "status": "partial",
   "theorems": [
    "CasSph.C08_refuted",
    "CasSph.C08_invertible_partial"
   ],
   "note": "Refuted as stated (C08_refuted: an invertible matrix with singular upper left block is rejected); C08_invertible_partial gives the part that holds."
  },
  {
   "property": "C09",
   "status": "proved",
   "theorems": [
    "CasSph.C09_trace_dot",
    "CasSph.C09_derivative",
    "CasSph.C09_returns"
   ],
   "note": "trace_dot_3d computes tr((1-m1)^-1 m2), the derivative of -ln det"
  },
  {
   "property": "C10",
   "status": "proved",
   "theorems": [
    "CasSph.C10_scaling_one_block",
    "CasSph.C10_scaling_four_blocks",
    "CasSph.C10_scaling_total"
   ],
   "note": "Dynamic scaling leaves every round-trip determinant and trace unchanged"
  },
  {
   "property": "C11",
   "status": "proved",
   "theorems": [
    "CasSph.C11_blockmatrices_operator",
    "CasSph.C11_blockmatrices_total"
   ],
   "note": "blockmatrices() is the product of scattering and translation operators"
  },
  {
   "property": "C12",
   "status": "proved",
   "theorems": [
    "CasSph.C12_negative_m",
    "CasSph.C12_total",
    "CasSph.C12_zero_frequency",
    "CasSph.C12_zero_blocks"
   ],
   "note": "Positive and negative m contribute equally"
  },
  {
   "property": "C13",
   "status": "proved",
   "theorems": [
    "CasSph.C13_mSumme",
    "CasSph.C13_vanishing",
    "CasSph.C13_error",
    "CasSph.C13_wavenumbers"
   ],
   "note": "mSumme is a truncated, doubled m-sum with a first-stop rule"
  },
  {
   "property": "C14",
   "status": "proved",
   "theorems": [
    "CasSph.C14_mSumme_k0",
    "CasSph.C14_error"
   ],
   "note": "mSumme_k0 is a truncated, doubled m-sum with a first-stop rule"
  },
  {
   "property": "C15",
   "status": "partial",
   "theorems": [
    "CasSph.C15_refuted",
    "CasSph.C15_last_term_partial"
   ],
   "note": "Refuted as stated (C15_refuted: the running sum changes sign); C15_last_term_partial: holds whenever it keeps its sign."
  },
  {
   "property": "C16",
   "status": "proved",
   "theorems": [
    "CasSph.C16_fixed_order",
    "CasSph.C16_order_error"
   ],
   "note": "Round-trip expansion of fixed order"
  },
  {
   "property": "C17",
   "status": "proved",
   "theorems": [
    "CasSph.C17_trace_to_lndet",
    "CasSph.C17_row_norm"
   ],
   "note": "The trace evaluation converges to the determinant evaluation"
  },
  {
   "property": "C18",
   "status": "partial",
   "theorems": [
    "CasSph.C18_stopping",
    "CasSph.C18_last_term_partial",
    "CasSph.C18_refuted",
    "CasSph.C18_terminates"
   ],
   "note": "Exact stopping rule: C18_stopping. Refuted as stated (C18_refuted: 0/0 in the first slice); C18_last_term_partial: holds otherwise; C18_terminates: termination."
  },
  {
   "property": "C19",
   "status": "proved",
   "theorems": [
    "CasSph.C19_mSum_roundtrips",
    "CasSph.C19_all_subspaces"
   ],
   "note": "m-sum of the trace evaluation"
  },
  {
   "property": "C20",
   "status": "partial",
   "theorems": [
    "CasSph.C20_refuted",
    "CasSph.C20_cold_call",
    "CasSph.C20_history_partial"
   ],
   "note": "Refuted as stated (C20_refuted); C20_history_partial: holds for m <= 1 or after a call with the same k; C20_cold_call: what is returned otherwise."
  },
  {
   "property": "C21",
   "status": "proved",
   "theorems": [
    "CasSph.C21_mSumme",
    "CasSph.C21_plain",
    "CasSph.C21_mSumme_trace"
   ],
   "note": "mSumme is history independent"
  },
  {
   "property": "C22",
   "status": "proved",
   "theorems": [
    "CasSph.C22_later_call",
    "CasSph.C22_poisoned",
    "CasSph.C22_fresh_mSumme_k0",
    "CasSph.C22_stratified"
   ],
   "note": "Zero-frequency elements: correct from a fresh object, poisoned by a first call with m >= 2"
  },
  {
   "property": "C23",
   "status": "proved",
   "theorems": [
    "CasSph.C23_elements_flag",
    "CasSph.C23_trace_dot_raises",
    "CasSph.C23_trace_dot_attributeError",
    "CasSph.C23_force_raises",
    "CasSph.C23_force_is_free_energy",
    "CasSph.C23_translation_force"
   ],
   "note": "Force evaluation never produces a force"
  },
  {
   "property": "C24",
   "status": "proved",
   "theorems": [
    "CasSph.C24_repeatable"
   ],
   "note": "free_energy and entropy are repeatable"
  },
  {
   "property": "C25",
   "status": "partial",
   "theorems": [
    "CasSph.C25_refuted",
    "CasSph.C25_unaffected_by_force_partial"
   ],
   "note": "Refuted as stated (C25_refuted: force() before the first free_energy()); C25_unaffected_by_force_partial: holds once free_energy() was evaluated."
  },
  {
   "property": "C26",
   "status": "proved",
   "theorems": [
    "CasSph.C26_slicewise_eval",
    "CasSph.C26_bad_stepsize",
    "CasSph.C26_negative_length",
    "CasSph.C26_initialised"
   ],
   "note": "slicewise_eval equals direct evaluation"
  },
  {
   "property": "C27",
   "status": "proved",
   "theorems": [
    "CasSph.C27_free_energy",
    "CasSph.C27_free_energy_numeric",
    "CasSph.C27_any_geometry",
    "CasSph.C27_maxstep"
   ],
   "note": "free_energy is the Matsubara sum at each temperature of the grid"
  },
  {
   "property": "C28",
   "status": "proved",
   "theorems": [
    "CasSph.C28_coarse_grid"
   ],
   "note": "Coarse and fine temperature grids agree"
  },
  {
   "property": "C29",
   "status": "proved",
   "theorems": [
    "CasSph.C29_entropy",
    "CasSph.C29_short_grid",
    "CasSph.C29_linear_exact"
   ],
   "note": "Entropy is minus the centred difference of the free energy"
  },
  {
   "property": "C30",
   "status": "proved",
   "theorems": [
    "CasSph.C30_zero_analytic",
    "CasSph.C30_zero_numeric",
    "CasSph.C30_nonzero",
    "CasSph.C30_zero_error",
    "CasSph.C30_single_zero",
    "CasSph.C30_nmax_zero"
   ],
   "note": "F_alle weights the zero frequency by one half and keeps the others"
  },
  {
   "property": "C31",
   "status": "proved",
   "theorems": [
    "CasSph.C31_maxstep",
    "CasSph.C31_auto_nmax",
    "CasSph.C31_analytic",
    "CasSph.C31_float_nprocs",
    "CasSph.C31_int_nprocs",
    "CasSph.C31_zero_step",
    "CasSph.C31_touching",
    "CasSph.C31_radius_zero",
    "CasSph.C31_lmax_zero",
    "CasSph.C31_zero_step_auto",
    "CasSph.C31_type_error",
    "CasSph.C31_nprocs_nameError"
   ],
   "note": "finiteT constructor: automatic nmax and validation"
  },
  {
   "property": "C32",
   "status": "proved",
   "theorems": [
    "CasSph.C32_ge_one",
    "CasSph.C32_symmetric",
    "CasSph.C32_precision",
    "CasSph.C32_distance",
    "CasSph.C32_touching",
    "CasSph.C32_bad_precision",
    "CasSph.C32_returns"
   ],
   "note": "get_lmax: at least one, symmetric, monotone"
  },
  {
   "property": "C33",
   "status": "proved",
   "theorems": [
    "CasSph.C33_lssmax",
    "CasSph.C33_symmetric",
    "CasSph.C33_fields",
    "CasSph.C33_evaluation"
   ],
   "note": "Automatic lssmax never truncates below lmax"
  },
  {
   "property": "C34",
   "status": "proved",
   "theorems": [
    "CasSph.C34_init",
    "CasSph.C34_init_auto",
    "CasSph.C34_init_string",
    "CasSph.C34_never_evaluates"
   ],
   "note": "CoatedSphereSphere cannot be evaluated"
  },
  {
   "property": "C35",
   "status": "proved",
   "theorems": [
    "CasSph.C35_lnknu",
    "CasSph.C35_type",
    "CasSph.C35_negative"
   ],
   "note": "lnknu is the exact logarithm of the modified spherical Bessel function k_l"
  },
  {
   "property": "C36",
   "status": "proved",
   "theorems": [
    "CasSph.C36_orders01",
    "CasSph.C36_k"
   ],
   "note": "lniknu orders 0 and 1 are exact for arguments >= 1e-3"
  },
  {
   "property": "C37",
   "status": "proved",
   "theorems": [
    "CasSph.C37_small",
    "CasSph.C37_mixed"
   ],
   "note": "lniknu small-argument branch is accurate"
  },
  {
   "property": "C38",
   "status": "proved",
   "theorems": [
    "CasSph.C38_fnu",
    "CasSph.C38_bracket",
    "CasSph.C38_raises"
   ],
   "note": "The truncated continued fraction brackets the true Bessel ratio"
  },
  {
   "property": "C39",
   "status": "proved",
   "theorems": [
    "CasSph.C39_orders"
   ],
   "note": "lniknu orders >= 2 are exact up to the continued-fraction error"
  },
  {
   "property": "C40",
   "status": "partial",
   "theorems": [
    "CasSph.C40_refuted",
    "CasSph.C40_refuted_series",
    "CasSph.C40_elementwise_partial",
    "CasSph.C40_mixed_partial"
   ],
   "note": "Refuted as stated (C40_refuted, C40_refuted_series); C40_elementwise_partial and C40_mixed_partial give the part that holds."
  },
  {
   "property": "C41",
   "status": "proved",
   "theorems": [
    "CasSph.C41_mie",
    "CasSph.C41_mie_raises",
    "CasSph.C41_trans"
   ],
   "note": "mie_bessels / trans_bessels select the requested orders"
  },
  {
   "property": "C42",
   "status": "proved",
   "theorems": [
    "CasSph.C42_array",
    "CasSph.C42_mie_defined",
    "CasSph.C42_internal_defined",
    "CasSph.C42_exact_table",
    "CasSph.C42_code_table"
   ],
   "note": "Mie coefficients are always well defined"
  },
  {
   "property": "C43",
   "status": "proved",
   "theorems": [
    "CasSph.C43_no_contrast",
    "CasSph.C43_no_contrast_internal"
   ],
   "note": "No contrast, no scattering"
  },
  {
   "property": "C44",
   "status": "proved",
   "theorems": [
    "CasSph.C44_pec",
    "CasSph.C44_dielectric",
    "CasSph.C44_conductor",
    "CasSph.C44_code_table",
    "CasSph.C44_exact_table"
   ],
   "note": "mie_k0 is the low-frequency limit of mie (dielectrics, Drude metals, perfect conductors)"
  },
  {
   "property": "C45",
   "status": "partial",
   "theorems": [
    "CasSph.C45_true_limit",
    "CasSph.C45_plasma_partial",
    "CasSph.C45_magnetic_refuted",
    "CasSph.C45_order_refuted",
    "CasSph.C45_truncated_partial"
   ],
   "note": "Refuted as stated (C45_magnetic_refuted for every static permeability other than one, C45_order_refuted); C45_plasma_partial: holds for non-magnetic spheres with the plasma oscillator first; C45_true_limit: the correct limit in general; C45_truncated_partial: error due to the truncated fraction."
  },
  {
   "property": "C46",
   "status": "partial",
   "theorems": [
    "CasSph.C46_pec",
    "CasSph.C46_dielectric",
    "CasSph.C46_conductor",
    "CasSph.C46_plasma_true_limit",
    "CasSph.C46_plasma_iff",
    "CasSph.C46_plasma_refuted",
    "CasSph.C46_lmin_refuted"
   ],
   "note": "C46_pec, C46_dielectric, C46_conductor hold; refuted for plasma exteriors (C46_plasma_iff, C46_plasma_refuted, C46_lmin_refuted); C46_plasma_true_limit: the correct limit."
  },
  {
   "property": "C47",
   "status": "proved",
   "theorems": [
    "CasSph.C47_core_coating",
    "CasSph.C47_medium_coating"
   ],
   "note": "Coating consistency"
  },
  {
   "property": "C48",
   "status": "proved",
   "theorems": [
    "CasSph.C48_terminates",
    "CasSph.C48_trailing_one",
    "CasSph.C48_trailing",
    "CasSph.C48_same_material",
    "CasSph.C48_inner_interface",
    "CasSph.C48_core_interface"
   ],
   "note": "Stratified spheres: redundant shells do not matter"
  },
  {
   "property": "C49",
   "status": "partial",
   "theorems": [
    "CasSph.C49_refuted",
    "CasSph.C49_effect",
    "CasSph.C49_partial",
    "CasSph.C49_shared_radii_refuted"
   ],
   "note": "Refuted as stated (C49_refuted, C49_shared_radii_refuted); C49_partial: holds when the last two materials differ, only two are given or the innermost sphere raises; C49_effect: what happens otherwise."
  },
  {
   "property": "C50",
   "status": "proved",
   "theorems": [
    "CasSph.C50_fresnel_bounds",
    "CasSph.C50_fresnel_zero",
    "CasSph.C50_fresnel_pec_limit"
   ],
   "note": "Fresnel coefficients: bounded, antisymmetric, zero without contrast"
  },
  {
   "property": "C51",
   "status": "proved",
   "theorems": [
    "CasSph.C51_gaunt_total",
    "CasSph.C51_gaunt_zero",
    "CasSph.C51_gaunt_top_pos"
   ],
   "note": "Gaunt coefficients: shape, zeros, no division by zero"
  },
  {
   "property": "C52",
   "status": "proved",
   "theorems": [
    "CasSph.C52_gaunt_symm"
   ],
   "note": "Gaunt coefficients are symmetric"
  },
  {
   "property": "C53",
   "status": "proved",
   "theorems": [
    "CasSph.C53_total",
    "CasSph.C53_backward",
    "CasSph.C53_symmetric",
    "CasSph.C53_m_parity",
    "CasSph.C53_no_mixing",
    "CasSph.C53_selection"
   ],
   "note": "Translation coefficients: parity, reciprocity, polarisation mixing"
  },
  {
   "property": "C54",
   "status": "partial",
   "theorems": [
    "CasSph.C54_reversible",
    "CasSph.C54_exterior",
    "CasSph.C54_interior_partial",
    "CasSph.C54_interior_refuted"
   ],
   "note": "Reversibility (C54_reversible) and the exterior case (C54_exterior) hold; the interior bound is refuted for the computed table (C54_interior_refuted: x = 10^6) and holds for exact Bessel functions (C54_interior_partial)."
  },
  {
   "property": "C55",
   "status": "proved",
   "theorems": [
    "CasSph.C55_ext_limit",
    "CasSph.C55_inputs_exist"
   ],
   "note": "Zero-frequency exterior translation is the limit of the finite-frequency one"
  },
  {
   "property": "C56",
   "status": "proved",
   "theorems": [
    "CasSph.C56_eps_ge_one",
    "CasSph.C56_eps_antitone",
    "CasSph.C56_eps_atTop",
    "CasSph.C56_eps_static",
    "CasSph.C56_flag_refuted"
   ],
   "note": "Permittivity of Lorentz materials: at least one, decreasing"
  },
  {
   "property": "C57",
   "status": "proved",
   "theorems": [
    "CasSph.C57_mu_nonmagnetic",
    "CasSph.C57_mu_between",
    "CasSph.C57_mu_atTop",
    "CasSph.C57_smith"
   ],
   "note": "Permeability and Smith-Drude permittivity bounds"
  },
  {
   "property": "C58",
   "status": "proved",
   "theorems": [
    "CasSph.C58_attributes",
    "CasSph.C58_magnetic",
    "CasSph.C58_dielectric_iff",
    "CasSph.C58_sigma_finite_iff",
    "CasSph.C58_dielectric_sigma"
   ],
   "note": "Material classification flags"
  },
  {
   "property": "C59",
   "status": "proved",
   "theorems": [
    "CasSph.C59_medium",
    "CasSph.C59_catalogue"
   ],
   "note": "Catalogue of predefined materials"
  },
  {
   "property": "C60",
   "status": "proved",
   "theorems": [
    "CasSph.C60_transform",
    "CasSph.C60_shared_refuted"
   ],
   "note": "Oscillator strength conversion"
  },
  {
   "property": "C61",
   "status": "proved",
   "theorems": [
    "CasSph.C61_additive",
    "CasSph.C61_attractive"
   ],
   "note": "PFA round trip is well defined, additive and attractive for equal plates"
  },
  {
   "property": "C62",
   "status": "partial",
   "theorems": [
    "CasSph.C62_half",
    "CasSph.C62_partial",
    "CasSph.C62_refuted"
   ],
   "note": "Refuted as stated (C62_refuted); C62_half: pressureRoundTrip is exactly one half of minus the derivative, for all parameters; C62_partial: the statement holds exactly where the pressure vanishes."
  },
  {
   "property": "C63",
   "status": "proved",
   "theorems": [
    "CasSph.C63_outside",
    "CasSph.C63_inside",
    "CasSph.C63_axis",
    "CasSph.C63_increasing",
    "CasSph.C63_domain",
    "CasSph.C63_energy_domain",
    "CasSph.C63_contact"
   ],
   "note": "PFA surface distance"
  },
  {
   "property": "C64",
   "status": "partial",
   "theorems": [
    "CasSph.C64_freeEnergy",
    "CasSph.C64_pressure",
    "CasSph.C64_highT",
    "CasSph.C64_ignored",
    "CasSph.C64_refuted",
    "CasSph.C64_partial",
    "CasSph.C64_get_f_matsubaras"
   ],
   "note": "Refuted as stated (C64_ignored: spheresphereForce and planeplane_e0 never use the flag; C64_refuted: a concrete wrong value); C64_partial: free energy and pressure at finite temperature and the high-temperature limit obey it."
  },
  {
   "property": "C65",
   "status": "partial",
   "theorems": [
    "CasSph.C65_only_target",
    "CasSph.C65_partial",
    "CasSph.C65_overwrites",
    "CasSph.C65_iff",
    "CasSph.C65_refuted",
    "CasSph.C65_success",
    "CasSph.C65_third_run",
    "CasSph.C65_exceptions",
    "CasSph.C65_run_partial"
   ],
   "note": "Refuted as stated (C65_refuted, C65_overwrites, C65_third_run: of three runs with one output name the second result is lost); C65_partial, C65_run_partial: holds at every crash point if one of the two names is free; C65_iff: exactly then."
  },
  {
   "property": "C66",
   "status": "proved",
   "theorems": [
    "CasSph.C66_argc",
    "CasSph.C66_missing_file",
    "CasSph.C66_analytic_ignored",
    "CasSph.C66_analytic_value",
    "CasSph.C66_analytic_required",
    "CasSph.C66_distance",
    "CasSph.C66_l_offset",
    "CasSph.C66_precision",
    "CasSph.C66_radius",
    "CasSph.C66_text_or_integer",
    "CasSph.C66_evaluation",
    "CasSph.C66_geometry_arguments",
    "CasSph.C66_third_argument",
    "CasSph.C66_computation",
    "CasSph.C66_result"
   ],
   "note": "worker configuration handling"
  },
  {
   "property": "C67",
   "status": "proved",
   "theorems": [
    "CasSph.C67_ln_2dbl",
    "CasSph.C67_doubleFactorial",
    "CasSph.C67_lfac"
   ],
   "note": "Logarithmic double factorial"
  },
  {
   "property": "C68",
   "status": "proved",
   "theorems": [
    "CasSph.C68_exact",
    "CasSph.C68_errors",
    "CasSph.C68_sharp"
   ],
   "note": "num_derivative is exact for low-degree polynomials"
  },
  {
   "property": "C69",
   "status": "proved",
   "theorems": [
    "CasSph.C69_chord",
    "CasSph.C69_data",
    "CasSph.C69_grid",
    "CasSph.C69_outside",
    "CasSph.C69_single",
    "CasSph.C69_descending"
   ],
   "note": "get_drude_data partitions a sorted frequency grid"
  },
  {
   "property": "C70",
   "status": "proved",
   "theorems": [
    "CasSph.C70_channels_sum"
   ],
   "note": "Channel decomposition adds up to the round-trip blocks"
  },
  {
   "property": "C71",
   "status": "partial",
   "theorems": [
    "CasSph.C71_debug_block_similar",
    "CasSph.C71_debug_one_partial",
    "CasSph.C71_refuted"
   ],
   "note": "Refuted as stated (C71_refuted); C71_debug_one_partial: single l; C71_debug_block_similar: each block on its own."
  },
  {
   "property": "C72",
   "status": "proved",
   "theorems": [
    "CasSph.C72_k0_ext_operator",
    "CasSph.C72_k0_ext_total",
    "CasSph.C72_k0_ext_empty"
   ],
   "note": "Zero-frequency matrices of separate spheres are the static round-trip operator"
  },
  {
   "property": "C73",
   "status": "proved",
   "theorems": [
    "CasSph.C73_k0_int_typeError",
    "CasSph.C73_k0_int_one",
    "CasSph.C73_single_m_k0"
   ],
   "note": "Zero-frequency evaluation inside a cavity"
  },
  {
   "property": "C74",
   "status": "proved",
   "theorems": [
    "CasSph.C74_dot",
    "CasSph.C74_inv",
    "CasSph.C74_shape_errors"
   ],
   "note": "Stack product and stack inverse"
  },
  {
   "property": "C75",
   "status": "proved",
   "theorems": [
    "CasSph.C75_single_m_raises",
    "CasSph.C75_single_m_warm"
   ],
   "note": "single_m needs a warm cache"
  },
  {
   "property": "C76",
   "status": "proved",
   "theorems": [
    "CasSph.C76_exception_poisons"
   ],
   "note": "An exception between the two spheres leaves an inconsistent cache"
  },
  {
   "property": "C77",
   "status": "proved",
   "theorems": [
    "CasSph.C77_gaunt_integral",
    "CasSph.C77_other_degrees",
    "CasSph.C77_gaunt_expansion",
    "CasSph.C77_spec_rodrigues"
   ],
   "note": "gaunt computes the integrals of products of three spherical harmonics"
  },
  {
   "property": "C78",
   "status": "proved",
   "theorems": [
    "CasSph.C78_int_limit",
    "CasSph.C78_inputs_exist",
    "CasSph.C78_diagonal"
   ],
   "note": "Zero-frequency interior translation coefficients are limits"
  },
  {
   "property": "C79",
   "status": "proved",
   "theorems": [
    "CasSph.C79_mie",
    "CasSph.C79_mie_pec",
    "CasSph.C79_internal",
    "CasSph.C79_internal_pec"
   ],
   "note": "Mie coefficients solve the boundary value problem"
  },
  {
   "property": "C80",
   "status": "proved",
   "theorems": [
    "CasSph.C80_bounds",
    "CasSph.C80_internal",
    "CasSph.C80_stratified"
   ],
   "note": "Perfect conductors scatter most strongly"
  },
  {
   "property": "C81",
   "status": "proved",
   "theorems": [
    "CasSph.C81_penetrable",
    "CasSph.C81_pec_core"
   ],
   "note": "Stratified spheres: the recursion over the shells is exact and never divides by zero"
  },
  {
   "property": "C82",
   "status": "proved",
   "theorems": [
    "CasSph.C82_lists",
    "CasSph.C82_not_lists"
   ],
   "note": "Construction of stratified spheres"
  },
  {
   "property": "C83",
   "status": "proved",
   "theorems": [
    "CasSph.C83_dielectric",
    "CasSph.C83_magnetic"
   ],
   "note": "Signs of the Mie coefficients"
  },
  {
   "property": "C84",
   "status": "proved",
   "theorems": [
    "CasSph.C84_lifshitz_sign"
   ],
   "note": "Lifshitz sign rule"
  },
  {
   "property": "C85",
   "status": "proved",
   "theorems": [
    "CasSph.C85_mirrors",
    "CasSph.C85_bound"
   ],
   "note": "Perfect mirrors: closed form and upper bound for every Matsubara frequency"
  },
  {
   "property": "C86",
   "status": "proved",
   "theorems": [
    "CasSph.C86_finiteT",
    "CasSph.C86_zeroT",
    "CasSph.C86_highT"
   ],
   "note": "Casimir's results for perfect mirrors in vacuum"
  },
  {
   "property": "C87",
   "status": "proved",
   "theorems": [
    "CasSph.C87_bound",
    "CasSph.C87_equal_negative",
    "CasSph.C87_equal_mono"
   ],
   "note": "Plane-plane free energy: existence, bound, attraction"
  },
  {
   "property": "C88",
   "status": "proved",
   "theorems": [
    "CasSph.C88_force_outside",
    "CasSph.C88_force_inside",
    "CasSph.C88_equal_radii"
   ],
   "note": "Force between spheres in proximity approximation"
  },
  {
   "property": "C89",
   "status": "proved",
   "theorems": [
    "CasSph.C89_raw",
    "CasSph.C89_energy_force",
    "CasSph.C89_mutation",
    "CasSph.C89_get_f_matsubaras",
    "CasSph.C89_zero_temperature",
    "CasSph.C89_sphere_force"
   ],
   "note": "raw_PFA agrees with PFA up to the cut-off"
  },
  {
   "property": "C90",
   "status": "proved",
   "theorems": [
    "CasSph.C90_length",
    "CasSph.C90_power",
    "CasSph.C90_exact"
   ],
   "note": "num_derivative with interpolation"
  },
  {
   "property": "C91",
   "status": "proved",
   "theorems": [
    "CasSph.C91_zero_frequency",
    "CasSph.C91_logarithm",
    "CasSph.C91_inputs_exist",
    "CasSph.C91_magnetic_refuted"
   ],
   "note": "Continuity of the determinant at zero frequency"
  },
  {
   "property": "C92",
   "status": "proved",
   "theorems": [
    "CasSph.C92_positive",
    "CasSph.C92_electric",
    "CasSph.C92_magnetic",
    "CasSph.C92_same_material",
    "CasSph.C92_logarithm_limit",
    "CasSph.C92_staticLn"
   ],
   "note": "Sign and size of the zero-frequency contribution"
  },
  {
   "property": "C93",
   "status": "proved",
   "theorems": [
    "CasSph.C93_monotone",
    "CasSph.C93_converges",
    "CasSph.C93_sum_converges"
   ],
   "note": "Monotonicity and convergence of the zero-frequency contribution in the cut-offs"
  },
  {
   "property": "C94",
   "status": "proved",
   "theorems": [
    "CasSph.C94_mSumme_k0"
   ],
   "note": "mSumme_k0 is well defined for two separate spheres"
  },
  {
   "property": "C95",
   "status": "proved",
   "theorems": [
    "CasSph.C95_integral",
    "CasSph.C95_sign",
    "CasSph.C95_decay",
    "CasSph.C95_inputs_exist"
   ],
   "note": "Translation coefficients as integrals over evanescent plane waves"
  },
  {
   "property": "C96",
   "status": "proved",
   "theorems": [
    "CasSph.C96_positive",
    "CasSph.C96_sign",
    "CasSph.C96_strict",
    "CasSph.C96_traces"
   ],
   "note": "Sign and size of the contribution of a non-zero frequency"
  },
  {
   "property": "C97",
   "status": "proved",
   "theorems": [
    "CasSph.C97_expansion",
    "CasSph.C97_arbitrary_roundtrips"
   ],
   "note": "Truncated round-trip expansions of separate spheres"
  },
  {
   "property": "C98",
   "status": "proved",
   "theorems": [
    "CasSph.C98_monotone",
    "CasSph.C98_converges"
   ],
   "note": "Monotonicity and convergence in the cut-offs at non-zero frequencies"
  },
  {
   "property": "C99",
   "status": "proved",
   "theorems": [
    "CasSph.C99_single_m",
    "CasSph.C99_mSumme",
    "CasSph.C99_mSum_roundtrips",
    "CasSph.C99_sum_converges"
   ],
   "note": "single_m, mSumme and mSum_roundtrips are well defined for separate spheres"
  },
  {
   "property": "C100",
   "status": "proved",
   "theorems": [
    "CasSph.C100_mSumme",
    "CasSph.C100_mSumme_k0",
    "CasSph.C100_free_energy",
    "CasSph.C100_nmax_limit",
    "CasSph.C100_constructor",
    "CasSph.C100_automatic"
   ],
   "note": "The free energy of two separate spheres, end to end"
  },
  {
   "property": "C101",
   "status": "proved",
   "theorems": [
    "CasSph.C101_automatic",
    "CasSph.C101_python3",
    "CasSph.C101_python2",
    "CasSph.C101_mmax",
    "CasSph.C101_sign"
   ],
   "note": "mSum_oneRoundtrip returns the trace with the wrong sign, or a NameError"
  },
  {
   "property": "C102",
   "status": "proved",
   "theorems": [
    "CasSph.C102_never_returns",
    "CasSph.C102_python3"
   ],
   "note": "A oneRoundtrip object never returns a result in Python 3"
  },
  {
   "property": "C103",
   "status": "proved",
   "theorems": [
    "CasSph.C103_tempcorr",
    "CasSph.C103_l_konvergenz"
   ],
   "note": "F_tempcorr and l_konvergenz never return"
  },
  {
   "property": "C104",
   "status": "proved",
   "theorems": [
    "CasSph.C104_integral",
    "CasSph.C104_energy",
    "CasSph.C104_cutoff",
    "CasSph.C104_none"
   ],
   "note": "The energy at zero temperature is a convergent integral with known sign and bound"
  },
  {
   "property": "C105",
   "status": "proved",
   "theorems": [
    "CasSph.C105_low_temperature"
   ],
   "note": "free_energy tends to e0 for low temperatures"
  },
  {
   "property": "C106",
   "status": "proved",
   "theorems": [
    "CasSph.C106_mSumme",
    "CasSph.C106_free_energy",
    "CasSph.C106_zero_temperature"
   ],
   "note": "Strict signs of energies, and no energy without contrast"
  },
  {
   "property": "C107",
   "status": "proved",
   "theorems": [
    "CasSph.C107_mSumme",
    "CasSph.C107_mSumme_k0",
    "CasSph.C107_free_energy",
    "CasSph.C107_zero_temperature"
   ],
   "note": "Exchanging the two spheres changes nothing"
  },
  {
   "property": "C108",
   "status": "proved",
   "theorems": [
    "CasSph.C108_mSumme",
    "CasSph.C108_mSumme_k0",
    "CasSph.C108_free_energy",
    "CasSph.C108_zero_temperature"
   ],
   "note": "The interaction of equal contrasts weakens with the distance"
  },
  {
   "property": "C109",
   "status": "proved",
   "theorems": [
    "CasSph.C109_free_energy",
    "CasSph.C109_zero_temperature",
    "CasSph.C109_catalogue"
   ],
   "note": "In vacuum all spheres attract each other"
  },
  {
   "property": "C110",
   "status": "proved",
   "theorems": [
    "CasSph.C110_similarity",
    "CasSph.C110_terminates",
    "CasSph.C110_balanced",
    "CasSph.C110_exact",
    "CasSph.C110_double"
   ],
   "note": "Balancing is exact in floating-point arithmetic"
  },
  {
   "property": "C111",
   "status": "proved",
   "theorems": [
    "CasSph.C111_mSumme",
    "CasSph.C111_mSumme_k0",
    "CasSph.C111_free_energy",
    "CasSph.C111_zero_temperature",
    "CasSph.C111_free_energy_limit",
    "CasSph.C111_zero_temperature_limit"
   ],
   "note": "Larger cut-offs strengthen the interaction, and the results converge"
  },
  {
   "property": "C112",
   "status": "proved",
   "theorems": [
    "CasSph.C112_label",
    "CasSph.C112_radius1",
    "CasSph.C112_returns",
    "CasSph.C112_picture",
    "CasSph.C112_overlap",
    "CasSph.C112_exchange",
    "CasSph.C112_clicks"
   ],
   "note": "The input window: labels, exceptions and the picture"
  },
  {
   "property": "C113",
   "status": "proved",
   "theorems": [
    "CasSph.C113_mSumme",
    "CasSph.C113_mSumme_k0",
    "CasSph.C113_free_energy",
    "CasSph.C113_zero_temperature",
    "CasSph.C113_perfect_conductors",
    "CasSph.C113_perfect_conductors_zero",
    "CasSph.C113_radii"
   ],
   "note": "Larger or more contrasting spheres interact more strongly; perfect conductors most"
  },
  {
   "property": "C114",
   "status": "proved",
   "theorems": [
    "CasSph.C114_mSumme",
    "CasSph.C114_mSumme_k0",
    "CasSph.C114_free_energy",
    "CasSph.C114_high_temperature",
    "CasSph.C114_zero_temperature",
    "CasSph.C114_functional_test"
   ],
   "note": "At large distances the code gives the interaction of two dipoles"
  },
  {
   "property": "C115",
   "status": "proved",
   "theorems": [
    "CasSph.C115_epsilon",
    "CasSph.C115_mu",
    "CasSph.C115_mSumme",
    "CasSph.C115_mSumme_k0",
    "CasSph.C115_free_energy",
    "CasSph.C115_entropy",
    "CasSph.C115_zero_temperature",
    "CasSph.C115_get_lmax",
    "CasSph.C115_init",
    "CasSph.C115_mirrors",
    "CasSph.C115_needs_analytic_n0"
   ],
   "note": "The results do not depend on the unit of length"
  },
  {
   "property": "C116",
   "status": "proved",
   "theorems": [
    "CasSph.C116_free_energy",
    "CasSph.C116_bound",
    "CasSph.C116_entropy",
    "CasSph.C116_limit"
   ],
   "note": "At high temperatures only the zero frequency counts"
  },
  {
   "property": "C117",
   "status": "proved",
   "theorems": [
    "CasSph.C117_mSumme",
    "CasSph.C117_mSumme_k0",
    "CasSph.C117_free_energy",
    "CasSph.C117_free_energy_limit",
    "CasSph.C117_zero_temperature",
    "CasSph.C117_zero_temperature_limit",
    "CasSph.C117_rate",
    "CasSph.C117_get_lmax"
   ],
   "note": "The error of finite cut-offs falls geometrically"
  },
  {
   "property": "C118",
   "status": "proved",
   "theorems": [
    "CasSph.C118_derivative",
    "CasSph.C118_value",
    "CasSph.C118_total",
    "CasSph.C118_mirrors",
    "CasSph.C118_reference",
    "CasSph.C118_bound",
    "CasSph.C118_attractive",
    "CasSph.C118_zeroT"
   ],
   "note": "The pressure between plane plates with exact integration"
  },
  {
   "property": "C119",
   "status": "proved",
   "theorems": [
    "CasSph.C119_coefficients",
    "CasSph.C119_one_interface",
    "CasSph.C119_homogeneous",
    "CasSph.C119_single_m",
    "CasSph.C119_mSumme",
    "CasSph.C119_complete",
    "CasSph.C119_cut_off",
    "CasSph.C119_cut_off_limit",
    "CasSph.C119_zero_frequency",
    "CasSph.C119_init",
    "CasSph.C119_init_empty",
    "CasSph.C119_constructor",
    "CasSph.C119_free_energy",
    "CasSph.C119_nmax_limit",
    "CasSph.C119_nmax_zero"
   ],
   "note": "Stratified spheres: existence, signs and bounds of the interaction"
  },
  {
   "property": "C120",
   "status": "proved",
   "theorems": [
    "CasSph.C120_positive",
    "CasSph.C120_sign",
    "CasSph.C120_strict",
    "CasSph.C120_monotone",
    "CasSph.C120_converges",
    "CasSph.C120_single_m",
    "CasSph.C120_mSumme",
    "CasSph.C120_separate"
   ],
   "note": "A sphere inside a cavity at non-zero wavenumbers"
  },
  {
   "property": "C121",
   "status": "proved",
   "theorems": [
    "CasSph.C121_k0_dipole",
    "CasSph.C121_k0_dipole_pec",
    "CasSph.C121_finiteT",
    "CasSph.C121_sphereSphere",
    "CasSph.C121_free_energy",
    "CasSph.C121_nmax_limit",
    "CasSph.C121_k0_typeError",
    "CasSph.C121_analytic",
    "CasSph.C121_nmax_zero",
    "CasSph.C121_separate"
   ],
   "note": "Free energy of a sphere inside a cavity"
  },
  {
   "property": "C122",
   "status": "proved",
   "theorems": [
    "CasSph.C122_lnknu",
    "CasSph.C122_second",
    "CasSph.C122_orders01_large",
    "CasSph.C122_orders01_small",
    "CasSph.C122_orders",
    "CasSph.C122_cancellation",
    "CasSph.C122_double",
    "CasSph.C122_exact"
   ],
   "note": "Rounding errors of the Bessel functions"
  },
  {
   "property": "C123",
   "status": "proved",
   "theorems": [
    "CasSph.C123_mie",
    "CasSph.C123_internal",
    "CasSph.C123_pec",
    "CasSph.C123_pec_internal",
    "CasSph.C123_sign",
    "CasSph.C123_sign_lost",
    "CasSph.C123_double"
   ],
   "note": "Rounding errors of the Mie coefficients"
  },
  {
   "property": "C124",
   "status": "proved",
   "theorems": [
    "CasSph.C124_integral",
    "CasSph.C124_energy",
    "CasSph.C124_cutoff",
    "CasSph.C124_contrast",
    "CasSph.C124_strict",
    "CasSph.C124_low_temperature",
    "CasSph.C124_separate"
   ],
   "note": "Energy at zero temperature of a sphere inside a cavity"
  },
  {
   "property": "C125",
   "status": "proved",
   "theorems": [
    "CasSph.C125_mSumme",
    "CasSph.C125_free_energy",
    "CasSph.C125_zero_temperature",
    "CasSph.C125_free_energy_limit",
    "CasSph.C125_zero_temperature_limit"
   ],
   "note": "Cut-offs for a sphere inside a cavity"
  },
  {
   "property": "C126",
   "status": "proved",
   "theorems": [
    "CasSph.C126_entries",
    "CasSph.C126_single_m",
    "CasSph.C126_stratified",
    "CasSph.C126_mSumme",
    "CasSph.C126_free_energy"
   ],
   "note": "Sensitivity of the energies to errors of the Mie coefficients"
  },
  {
   "property": "C127",
   "status": "proved",
   "theorems": [
    "CasSph.C127_assembly",
    "CasSph.C127_stratified",
    "CasSph.C127_rounded",
    "CasSph.C127_double"
   ],
   "note": "Rounding errors of scaling, assembly and of the whole round-trip matrix"
  },
  {
   "property": "C128",
   "status": "proved",
   "theorems": [
    "CasSph.C128_mSumme",
    "CasSph.C128_free_energy",
    "CasSph.C128_zero_temperature",
    "CasSph.C128_perfect_conductors",
    "CasSph.C128_perfect_conductors_zero",
    "CasSph.C128_place",
    "CasSph.C128_place_zero"
   ],
   "note": "A sphere inside a cavity: contrast, radii and distance of the centres"
  },
  {
   "property": "C129",
   "status": "proved",
   "theorems": [
    "CasSph.C129_mSumme",
    "CasSph.C129_mSumme_k0",
    "CasSph.C129_free_energy",
    "CasSph.C129_zero_temperature",
    "CasSph.C129_cavity_free_energy",
    "CasSph.C129_cavity_zero_temperature",
    "CasSph.C129_step",
    "CasSph.C129_cavity_step"
   ],
   "note": "Dependence on the distance: log-convexity and concavity"
  },
  {
   "property": "C130",
   "status": "proved",
   "theorems": [
    "CasSph.C130_pair",
    "CasSph.C130_alive",
    "CasSph.C130_double",
    "CasSph.C130_mSumme",
    "CasSph.C130_complete",
    "CasSph.C130_mSumme_k0",
    "CasSph.C130_free_energy"
   ],
   "note": "Rounding errors of the sums over m and over the Matsubara wavenumbers"
  },
  {
   "property": "C131",
   "status": "proved",
   "theorems": [
    "CasSph.C131_single_m",
    "CasSph.C131_mSumme_k0",
    "CasSph.C131_pair",
    "CasSph.C131_double"
   ],
   "note": "Rounding errors of the zero-frequency contribution"
  },
  {
   "property": "C132",
   "status": "proved",
   "theorems": [
    "CasSph.C132_single_m",
    "CasSph.C132_mSumme",
    "CasSph.C132_mSumme_k0",
    "CasSph.C132_free_energy",
    "CasSph.C132_zero_temperature",
    "CasSph.C132_parameters",
    "CasSph.C132_same_material"
   ],
   "note": "Sensitivity of the energies to all data"
  },
  {
   "property": "C133",
   "status": "proved",
   "theorems": [
    "CasSph.C133_free_energy",
    "CasSph.C133_double"
   ],
   "note": "free_energy in rounded and in exact arithmetic"
  },
  {
   "property": "C134",
   "status": "proved",
   "theorems": [
    "CasSph.C134_single_m",
    "CasSph.C134_single_m_k0",
    "CasSph.C134_stop",
    "CasSph.C134_stop_k0",
    "CasSph.C134_mSumme",
    "CasSph.C134_one_wavenumber",
    "CasSph.C134_mSumme_k0",
    "CasSph.C134_zero_temperature",
    "CasSph.C134_free_energy",
    "CasSph.C134_vacuum"
   ],
   "note": "Contributions fall with m; cost of the early termination of the sums over m"
  },
  {
   "property": "C135",
   "status": "proved",
   "theorems": [
    "CasSph.C135_rate",
    "CasSph.C135_entropy",
    "CasSph.C135_slope",
    "CasSph.C135_numeric_rate",
    "CasSph.C135_numeric_entropy",
    "CasSph.C135_numeric_gap"
   ],
   "note": "The entropy vanishes at low temperatures"
  },
  {
   "property": "C136",
   "status": "proved",
   "theorems": [
    "CasSph.C136_complete",
    "CasSph.C136_mSumme",
    "CasSph.C136_mSumme_convex",
    "CasSph.C136_cut_offs",
    "CasSph.C136_free_energy",
    "CasSph.C136_free_energy_convex",
    "CasSph.C136_free_energy_cut_offs"
   ],
   "note": "Stratified spheres: distance and cut-offs"
  },
  {
   "property": "C137",
   "status": "proved",
   "theorems": [
    "CasSph.C137_coefficients",
    "CasSph.C137_mSumme",
    "CasSph.C137_free_energy",
    "CasSph.C137_between",
    "CasSph.C137_homogeneous",
    "CasSph.C137_coating"
   ],
   "note": "Stratified spheres: more contrast, stronger interaction"
  },
  {
   "property": "C138",
   "status": "proved",
   "theorems": [
    "CasSph.C138_integral",
    "CasSph.C138_energy",
    "CasSph.C138_cutoff",
    "CasSph.C138_strict",
    "CasSph.C138_homogeneous",
    "CasSph.C138_zero",
    "CasSph.C138_distance",
    "CasSph.C138_convex",
    "CasSph.C138_profiles",
    "CasSph.C138_cut_offs",
    "CasSph.C138_truncation",
    "CasSph.C138_low_temperature"
   ],
   "note": "Stratified spheres at zero temperature"
  },
  {
   "property": "C139",
   "status": "proved",
   "theorems": [
    "CasSph.C139_coefficients",
    "CasSph.C139_single_m",
    "CasSph.C139_mSumme",
    "CasSph.C139_one_wavenumber",
    "CasSph.C139_zero_temperature",
    "CasSph.C139_free_energy"
   ],
   "note": "Stratified spheres: TM against TE, fall with m, cost of the early termination"
  },
  {
   "property": "C140",
   "status": "proved",
   "theorems": [
    "CasSph.C140_outside",
    "CasSph.C140_inside",
    "CasSph.C140_plates",
    "CasSph.C140_bound",
    "CasSph.C140_equal_outside",
    "CasSph.C140_equal_inside",
    "CasSph.C140_area",
    "CasSph.C140_bracket_outside",
    "CasSph.C140_bracket_inside",
    "CasSph.C140_force",
    "CasSph.C140_force_exists",
    "CasSph.C140_zeroT_outside",
    "CasSph.C140_zeroT_inside",
    "CasSph.C140_highT_outside"
   ],
   "note": "Energy of two spheres in the proximity approximation"
  },
  {
   "property": "C141",
   "status": "partial",
   "theorems": [
    "CasSph.C141_highT_limit",
    "CasSph.C141_refuted",
    "CasSph.C141_zeroT_partial"
   ],
   "note": "Refuted as stated (C141_refuted: in the high-temperature limit the energy is at most 10/17 of the work); C141_zeroT_partial: holds for perfect mirrors in vacuum at zero temperature up to the cut-off of the frequencies; C141_highT_limit: effect of the lower limit of the wavenumbers."
  },
  {
   "property": "C142",
   "status": "proved",
   "theorems": [
    "CasSph.C142_fresnel",
    "CasSph.C142_roundTrips",
    "CasSph.C142_roundTrip",
    "CasSph.C142_pressureRoundTrips",
    "CasSph.C142_pressureRoundTrip",
    "CasSph.C142_energy_lost"
   ],
   "note": "Rounding of Fresnel coefficients and of round trips between plates"
  },
  {
   "property": "C143",
   "status": "proved",
   "theorems": [
    "CasSph.C143_limit",
    "CasSph.C143_positive",
    "CasSph.C143_perfect_conductors",
    "CasSph.C143_one_perfect_conductor",
    "CasSph.C143_expected",
    "CasSph.C143_test_entropy"
   ],
   "note": "Entropy of two spheres at large distances: limit and sign"
  },
  {
   "property": "C144",
   "status": "proved",
   "theorems": [
    "CasSph.C144_slogdet",
    "CasSph.C144_balanced",
    "CasSph.C144_growth",
    "CasSph.C144_contraction",
    "CasSph.C144_lost",
    "CasSph.C144_blocks",
    "CasSph.C144_blockdiagonal"
   ],
   "note": "Rounding errors of the logarithms of determinants"
  },
  {
   "property": "C145",
   "status": "proved",
   "theorems": [
    "CasSph.C145_translation",
    "CasSph.C145_exterior",
    "CasSph.C145_lost"
   ],
   "note": "Rounding errors of the translation coefficients"
  },
  {
   "property": "C146",
   "status": "proved",
   "theorems": [
    "CasSph.C146_gaunt",
    "CasSph.C146_relative",
    "CasSph.C146_size",
    "CasSph.C146_translation",
    "CasSph.C146_zero"
   ],
   "note": "Rounding errors of the Gaunt coefficients"
  },
  {
   "property": "C147",
   "status": "proved",
   "theorems": [
    "CasSph.C147_relative",
    "CasSph.C147_small",
    "CasSph.C147_array",
    "CasSph.C147_matrix",
    "CasSph.C147_double",
    "CasSph.C147_total",
    "CasSph.C147_energy"
   ],
   "note": "Relative errors of the computed translation coefficients"
  },
  {
   "property": "C148",
   "status": "proved",
   "theorems": [
    "CasSph.C148_mSumme",
    "CasSph.C148_mSumme_k0",
    "CasSph.C148_zero_temperature",
    "CasSph.C148_free_energy",
    "CasSph.C148_stratified",
    "CasSph.C148_stratified_zero_temperature"
   ],
   "note": "Early termination and finite cut-offs together"
  },
  {
   "property": "C149",
   "status": "proved",
   "theorems": [
    "CasSph.C149_exact",
    "CasSph.C149_double",
    "CasSph.C149_limit",
    "CasSph.C149_double_limit"
   ],
   "note": "The computed free energy against larger cut-offs and more Matsubara terms"
  },
  {
   "property": "C150",
   "status": "proved",
   "theorems": [
    "CasSph.C150_entropy_limit",
    "CasSph.C150_gradient",
    "CasSph.C150_entropy"
   ],
   "note": "The computed entropy against larger cut-offs and more Matsubara terms"
  },
  {
   "property": "C151",
   "status": "proved",
   "theorems": [
    "CasSph.C151_mSumme",
    "CasSph.C151_free_energy",
    "CasSph.C151_free_energy_limit",
    "CasSph.C151_zero_temperature",
    "CasSph.C151_zero_temperature_limit",
    "CasSph.C151_rate"
   ],
   "note": "Error of finite cut-offs for a sphere inside a cavity"
  },
  {
   "property": "C152",
   "status": "proved",
   "theorems": [
    "CasSph.C152_free_energy",
    "CasSph.C152_limit",
    "CasSph.C152_entropy",
    "CasSph.C152_limit_sign",
    "CasSph.C152_entropy_limit"
   ],
   "note": "A sphere inside a cavity: free energy and entropy against larger cut-offs and more Matsubara terms"
  },
  {
   "property": "C153",
   "status": "proved",
   "theorems": [
    "CasSph.C153_mSumme",
    "CasSph.C153_zero_temperature",
    "CasSph.C153_free_energy",
    "CasSph.C153_total",
    "CasSph.C153_limit",
    "CasSph.C153_entropy"
   ],
   "note": "Early termination of the sums over m for a sphere inside a cavity"
  }
 ]
}