{
 "claims": [
  {
   "property": "C01",
   "status": "proved",
   "theorems": [
    "Meanas.Props.C01_deriv_forward",
    "Meanas.Props.C01_deriv_back",
    "Meanas.Props.C01_curl_forward",
    "Meanas.Props.C01_curl_back",
    "Meanas.Props.C01_curl_forward_x",
    "Meanas.Props.C01_deriv_values",
    "Meanas.Props.C01_curl_values",
    "Meanas.Props.C01_deriv_2d"
   ],
   "note": "Flat (C-order) sparse operators vs. functional operators, any shape (length-1 axes included), any widths."
  },
  {
   "property": "C02",
   "status": "proved",
   "theorems": [
    "Meanas.Props.C02_unvec_vec",
    "Meanas.Props.C02_vec_unvec",
    "Meanas.Props.C02_unvec_error_iff",
    "Meanas.Props.C02_position_3d",
    "Meanas.Props.C02_position_2d"
   ],
   "note": ""
  },
  {
   "property": "C03",
   "status": "proved",
   "theorems": [
    "Meanas.Props.C03_shift_circ",
    "Meanas.Props.C03_shift_circ_group",
    "Meanas.Props.C03_shift_circ_error_iff"
   ],
   "note": ""
  },
  {
   "property": "C04",
   "status": "proved",
   "theorems": [
    "Meanas.Props.C04_shift_with_mirror",
    "Meanas.Props.C04_shift_with_mirror_ok_iff"
   ],
   "note": "Distances below -n pass the explicit check and are rejected by ravel_multi_index."
  },
  {
   "property": "C05",
   "status": "proved",
   "theorems": [
    "Meanas.Props.C05_div_curl_back",
    "Meanas.Props.C05_div_curl_forward",
    "Meanas.Props.C05_curl_grad_forward",
    "Meanas.Props.C05_curl_grad_back"
   ],
   "note": ""
  },
  {
   "property": "C06",
   "status": "proved",
   "theorems": [
    "Meanas.Props.C06_deriv_adjoint",
    "Meanas.Props.C06_curl_adjoint",
    "Meanas.Props.C06_deriv_adjoint_weighted",
    "Meanas.Props.C06_curl_adjoint_weighted"
   ],
   "note": ""
  },
  {
   "property": "C07",
   "status": "proved",
   "theorems": [
    "Meanas.Props.C07_curl_forward_parts",
    "Meanas.Props.C07_curl_back_parts",
    "Meanas.Props.C07_parts_single_axis"
   ],
   "note": ""
  },
  {
   "property": "C08",
   "status": "proved",
   "theorems": [
    "Meanas.Props.C08_avg",
    "Meanas.Props.C08_avg_preserves",
    "Meanas.Props.C08_vec_cross",
    "Meanas.Props.C08_vec_cross_antisymm"
   ],
   "note": ""
  },
  {
   "property": "C09",
   "status": "proved",
   "theorems": [
    "Meanas.Props.C09_gauss_electric",
    "Meanas.Props.C09_gauss_magnetic"
   ],
   "note": "Scripts: any interleaving of E updates, H updates, J and M injections."
  },
  {
   "property": "C10",
   "status": "partial",
   "theorems": [
    "Meanas.Props.C10_poynting_h2e_partial",
    "Meanas.Props.C10_poynting_e2h_partial",
    "Meanas.Props.C10_delta_energy",
    "Meanas.Props.C10_poynting_h2e_yee",
    "Meanas.Props.C10_poynting_e2h_yee",
    "Meanas.Props.C10_source_work",
    "Meanas.Props.C10_excess_h2e_partial",
    "Meanas.Props.C10_excess_e2h_partial",
    "Meanas.Props.C10_unequal_lattices_partial"
   ],
   "note": "True for grids with dx_e == dx_h; false otherwise (witness C10_unequal_lattices_partial): dxmul weights every E component with dx_e*dy_e*dz_e instead of its Yee volume. With Yee volumes the identity holds on all grids (…_yee); C10_excess_… gives the exact error of the code on all grids."
  },
  {
   "property": "C11",
   "status": "proved",
   "theorems": [
    "Meanas.Props.C11_total_energy",
    "Meanas.Props.C11_source_free"
   ],
   "note": ""
  },
  {
   "property": "C12",
   "status": "proved",
   "theorems": [
    "Meanas.Props.C12_stability"
   ],
   "note": "Non-uniform grids with different E and H widths and inhomogeneous media included."
  },
  {
   "property": "C13",
   "status": "proved",
   "theorems": [
    "Meanas.Props.C13_reversible",
    "Meanas.Props.C13_reversible_script"
   ],
   "note": ""
  },
  {
   "property": "C14",
   "status": "proved",
   "theorems": [
    "Meanas.Props.C14_superposition"
   ],
   "note": ""
  },
  {
   "property": "C15",
   "status": "proved",
   "theorems": [
    "Meanas.Props.C15_light_cone",
    "Meanas.Props.C15_light_cone_leapfrog"
   ],
   "note": ""
  },
  {
   "property": "C16",
   "status": "proved",
   "theorems": [
    "Meanas.Props.C16_translation"
   ],
   "note": ""
  },
  {
   "property": "C17",
   "status": "proved",
   "theorems": [
    "Meanas.Props.C17_arguments",
    "Meanas.Props.C17_sum_zero",
    "Meanas.Props.C17_sum_zero_eh"
   ],
   "note": ""
  },
  {
   "property": "C18",
   "status": "partial",
   "theorems": [
    "Meanas.Props.C18_accepts",
    "Meanas.Props.C18_low_side_partial",
    "Meanas.Props.C18_high_side_partial",
    "Meanas.Props.C18_too_short_partial",
    "Meanas.Props.C18_idempotent_partial",
    "Meanas.Props.C18_raises_on_numpy2_partial"
   ],
   "note": "The index lists used for the high side raise on numpy >= 2 (required by pyproject); the intended behaviour is proved for tuple indices."
  },
  {
   "property": "C19",
   "status": "proved",
   "theorems": [
    "Meanas.Props.C19_accepts",
    "Meanas.Props.C19_bounds",
    "Meanas.Props.C19_monotone",
    "Meanas.Props.C19_mirror",
    "Meanas.Props.C19_placement"
   ],
   "note": ""
  },
  {
   "property": "C20",
   "status": "partial",
   "theorems": [
    "Meanas.Props.C20_update_e",
    "Meanas.Props.C20_update_h_partial",
    "Meanas.Props.C20_update_h_actual",
    "Meanas.Props.C20_update_h_wrong_lattice_partial"
   ],
   "note": "E part holds on every grid. H part holds iff the lattices agree: pml.py builds the forward derivatives from dxes[1]."
  },
  {
   "property": "C21",
   "status": "proved",
   "theorems": [
    "Meanas.Props.C21_recursion_e",
    "Meanas.Props.C21_recursion_h",
    "Meanas.Props.C21_convolution_e",
    "Meanas.Props.C21_convolution_h",
    "Meanas.Props.C21_update_e",
    "Meanas.Props.C21_update_h",
    "Meanas.Props.C21_outside",
    "Meanas.Props.C21_interior",
    "Meanas.Props.C21_disjoint_layers"
   ],
   "note": "Layers on the same axis must not overlap (C21_disjoint_layers: true whenever the two thicknesses fit into the axis)."
  },
  {
   "property": "C22",
   "status": "partial",
   "theorems": [
    "Meanas.Props.C22_delay",
    "Meanas.Props.C22_phase",
    "Meanas.Props.C22_turn_on",
    "Meanas.Props.C22_envelope",
    "Meanas.Props.C22_one_sided_partial",
    "Meanas.Props.C22_one_sided_drop_partial",
    "Meanas.Props.C22_ricker",
    "Meanas.Props.C22_ricker_second_derivative"
   ],
   "note": "Everything holds except the one_sided clause for wide-band pulses: the envelope peak (2 alpha/pi)^(1/4) may exceed the value 1 it is then set to."
  },
  {
   "property": "C23",
   "status": "partial",
   "theorems": [
    "Meanas.Props.C23_finite_iff_partial",
    "Meanas.Props.C23_normalised_partial",
    "Meanas.Props.C23_nan_partial"
   ],
   "note": "False on grids containing the waist plane: 0*(1+inf) is NaN, and a NaN in the middle row makes every value NaN."
  },
  {
   "property": "C24",
   "status": "partial",
   "theorems": [
    "Meanas.Props.C24_e_full_no_mu_partial",
    "Meanas.Props.C24_e_full_mu_actual_partial",
    "Meanas.Props.C24_e_full_mu_wrong_partial",
    "Meanas.Props.C24_eh_full_partial",
    "Meanas.Props.C24_eh_full_no_mu_raises_partial",
    "Meanas.Props.C24_e2h",
    "Meanas.Props.C24_m2j_sign_partial",
    "Meanas.Props.C24_m2j_wrong_partial",
    "Meanas.Props.C24_tfsf_no_mu_partial",
    "Meanas.Props.C31_e_cross",
    "Meanas.Props.C31_h_cross"
   ],
   "note": "Holds for e_full without mu, eh_full with mu, e2h. False for functional.e_full with mu (multiplies by mu, witness), m2j (opposite sign, witness), operators.eh_full with mu=None (raises)."
  },
  {
   "property": "C25",
   "status": "proved",
   "theorems": [
    "Meanas.Props.C25_symmetric",
    "Meanas.Props.C25_inverse"
   ],
   "note": ""
  },
  {
   "property": "C26",
   "status": "proved",
   "theorems": [
    "Meanas.Props.C26_first_second_order",
    "Meanas.Props.C26_no_magnetic_source",
    "Meanas.Props.C26_functional_no_mu"
   ],
   "note": ""
  },
  {
   "property": "C27",
   "status": "proved",
   "theorems": [
    "Meanas.Props.C27_e_to_h",
    "Meanas.Props.C27_h_to_e"
   ],
   "note": ""
  },
  {
   "property": "C28",
   "status": "proved",
   "theorems": [
    "Meanas.Props.C28_pec_zero",
    "Meanas.Props.C28_pec_independent",
    "Meanas.Props.C28_pec_elsewhere",
    "Meanas.Props.C28_pmc_e_full",
    "Meanas.Props.C28_pmc_e2h",
    "Meanas.Props.C28_pmc_zero",
    "Meanas.Props.C28_h_full_value",
    "Meanas.Props.C28_h_full_pec",
    "Meanas.Props.C28_empty_masks",
    "Meanas.Props.C28_eh_full"
   ],
   "note": ""
  },
  {
   "property": "C29",
   "status": "proved",
   "theorems": [
    "Meanas.Props.C29_launches",
    "Meanas.Props.C29_local"
   ],
   "note": ""
  },
  {
   "property": "C30",
   "status": "partial",
   "theorems": [
    "Meanas.Props.C30_rows_partial",
    "Meanas.Props.C30_complete_partial",
    "Meanas.Props.C30_slab_partial",
    "Meanas.Props.C30_corner_missing_partial"
   ],
   "note": "The source keeps the currents of face neighbours only; complete for masks whose boundary has no concave edge (slabs), currents at cells diagonal to a mask edge are missing (witness)."
  },
  {
   "property": "C31",
   "status": "proved",
   "theorems": [
    "Meanas.Props.C31_e_cross",
    "Meanas.Props.C31_h_cross",
    "Meanas.Props.C31_energy_balance",
    "Meanas.Props.C31_total_power"
   ],
   "note": ""
  },
  {
   "property": "C32",
   "status": "partial",
   "theorems": [
    "Meanas.Props.C32_solves_partial",
    "Meanas.Props.C32_adjoint_partial",
    "Meanas.Props.C32_adjoint_raises_partial",
    "Meanas.Props.C32_guess_partial"
   ],
   "note": "The adjoint branch uses the attribute .H, which scipy >= 1.14 sparse arrays do not have: it raises. The rest is proved with an exact solver as oracle."
  },
  {
   "property": "C33",
   "status": "partial",
   "theorems": [
    "Meanas.Props.C33_no_guess_partial",
    "Meanas.Props.C33_no_guess_sequence_partial",
    "Meanas.Props.C33_stale_guess_partial",
    "Meanas.Props.C33_interference_partial",
    "Meanas.Props.C33_callback_recursion_partial",
    "Meanas.Props.C33_no_callback_partial"
   ],
   "note": "False: an E_guess is written into the caller's option dictionary and used by later calls; a user callback makes the logging callback call itself for ever."
  },
  {
   "property": "C34",
   "status": "proved",
   "theorems": [
    "Meanas.Props.C34_charge",
    "Meanas.Props.C34_no_charge"
   ],
   "note": ""
  },
  {
   "property": "C35",
   "status": "proved",
   "theorems": [
    "Meanas.Props.C35_harmonic",
    "Meanas.Props.C35_driven",
    "Meanas.Props.C35_documented_signs"
   ],
   "note": "Sign convention: the FDFD operators match exp(+i omega t); C35_documented_signs states what the documented exp(-i omega t) gives."
  },
  {
   "property": "C36",
   "status": "proved",
   "theorems": [
    "Meanas.Props.C36_dispersion",
    "Meanas.Props.C36_fdtd"
   ],
   "note": ""
  },
  {
   "property": "C37",
   "status": "partial",
   "theorems": [
    "Meanas.Props.C37_real_part",
    "Meanas.Props.C37_zero_thickness",
    "Meanas.Props.C37_outside",
    "Meanas.Props.C37_default_outside",
    "Meanas.Props.C37_mirror_b",
    "Meanas.Props.C37_mirror_a_partial",
    "Meanas.Props.C37_mirror_a_wrong_partial",
    "Meanas.Props.C37_default_sign",
    "Meanas.Props.C37_default_growth"
   ],
   "note": "All clauses proved except mirror symmetry of the first list: it is sampled at i instead of i+1/2, so entry i mirrors entry n-i and the list is not its own reversal (witness)."
  },
  {
   "property": "C38",
   "status": "partial",
   "theorems": [
    "Meanas.Props.C38_layer_only",
    "Meanas.Props.C38_commute",
    "Meanas.Props.C38_raises",
    "Meanas.Props.C38_zero_front_partial",
    "Meanas.Props.C38_zero_back_partial"
   ],
   "note": "Thickness 0 at the back turns every width of the axis into NaN."
  },
  {
   "property": "C39",
   "status": "proved",
   "theorems": [
    "Meanas.Props.C39_operator_e_modes",
    "Meanas.Props.C39_is_mode",
    "Meanas.Props.C39_e2h_h2e",
    "Meanas.Props.C39_errors_zero",
    "Meanas.Props.C39_errors_decide"
   ],
   "note": ""
  },
  {
   "property": "C40",
   "status": "proved",
   "theorems": [
    "Meanas.Props.C40_operator_h_modes",
    "Meanas.Props.C40_is_mode"
   ],
   "note": ""
  },
  {
   "property": "C41",
   "status": "proved",
   "theorems": [
    "Meanas.Props.C41_mode_gives_eigenvectors",
    "Meanas.Props.C41_same_spectrum"
   ],
   "note": ""
  },
  {
   "property": "C42",
   "status": "proved",
   "theorems": [
    "Meanas.Props.C42_unit_power",
    "Meanas.Props.C42_rejects",
    "Meanas.Props.C42_scale_invariant",
    "Meanas.Props.C42_phase_invariant",
    "Meanas.Props.C42_normalized_fields_e",
    "Meanas.Props.C42_normalized_fields_h"
   ],
   "note": "Also invariant under a complex factor when some entry has positive energy."
  },
  {
   "property": "C43",
   "status": "partial",
   "theorems": [
    "Meanas.Props.C43_inner_product_value",
    "Meanas.Props.C43_sesquilinear",
    "Meanas.Props.C43_trapezoid_raises_partial",
    "Meanas.Props.C43_trapezoid_square_partial",
    "Meanas.Props.C43_trapezoid_wrong_partial",
    "Meanas.Props.C43_trapezoid_two_partial"
   ],
   "note": "Holds for the default branch. trapezoid=True raises a shape error on every cross-section with nx != ny (none equal to 2), because Sz_b integrates along y with the x positions; with two cells along y nothing is raised but the second term is weighted with the whole extent of the grid."
  },
  {
   "property": "C44",
   "status": "proved",
   "theorems": [
    "Meanas.Props.C44_orthogonal"
   ],
   "note": "With the Yee areas dx_e*dy_h, dx_h*dy_e; see C69 for the weights of inner_product."
  },
  {
   "property": "C45",
   "status": "partial",
   "theorems": [
    "Meanas.Props.C45_sensitivity_uniform",
    "Meanas.Props.C45_sensitivity_fails_nonuniform_partial",
    "Meanas.Props.C45_sensitivity_fails_lossy_partial"
   ],
   "note": "Proved for lossless waveguides on uniform grids, along every curve of media. False on non-uniform grids, and in lossy media because H is conjugated (two witnesses with explicit curves of modes)."
  },
  {
   "property": "C46",
   "status": "partial",
   "theorems": [
    "Meanas.Props.C46_lossless_partial",
    "Meanas.Props.C46_propagating_partial",
    "Meanas.Props.C46_evanescent_partial",
    "Meanas.Props.C46_order_partial",
    "Meanas.Props.C46_empty_partial",
    "Meanas.Props.C46_no_margin_partial"
   ],
   "note": "Proved for lossless problems with an eigensolver meeting its contract: the requested eigenvectors are returned. False: evanescent modes get the wavenumber 0 instead of a square root of the eigenvalue, and the modes come sorted by wavenumber, not in the order requested."
  },
  {
   "property": "C47",
   "status": "partial",
   "theorems": [
    "Meanas.Props.C47_operator_modes_partial",
    "Meanas.Props.C47_mode_gives_eigenvector_partial",
    "Meanas.Props.C47_exy2e_error_partial",
    "Meanas.Props.C47_exy2e_wrong_partial"
   ],
   "note": "cylindrical_operator is right: with the longitudinal field of the divergence condition its eigenvectors are the modes of the bend, and conversely. exy2e is wrong: one radius factor is Tb instead of Ta (exact error term proved; witness where no H field makes the result a mode). e2h and exy2h return -H, which only normalized_fields_e undoes."
  },
  {
   "property": "C48",
   "status": "proved",
   "theorems": [
    "Meanas.Props.C48_unit_factors",
    "Meanas.Props.C48_scale_factors",
    "Meanas.Props.C48_limit"
   ],
   "note": ""
  },
  {
   "property": "C49",
   "status": "proved",
   "theorems": [
    "Meanas.Props.C49_mode_radius",
    "Meanas.Props.C49_linear_wavenumber"
   ],
   "note": ""
  },
  {
   "property": "C50",
   "status": "proved",
   "theorems": [
    "Meanas.Props.C50_reduction",
    "Meanas.Props.C50_expansion",
    "Meanas.Props.C50_wavenumber",
    "Meanas.Props.C50_solve_mode"
   ],
   "note": "The pair found by the 2D solver is a parameter of the model of solve_mode."
  },
  {
   "property": "C51",
   "status": "partial",
   "theorems": [
    "Meanas.Props.C51_forward_partial",
    "Meanas.Props.C51_backward_fails_partial",
    "Meanas.Props.C51_backward_witness_partial"
   ],
   "note": "Proved for polarity +1. False for polarity -1 whenever the mode has a longitudinal E component: solve_mode flips all of H and keeps E_z (concrete witness)."
  },
  {
   "property": "C52",
   "status": "partial",
   "theorems": [
    "Meanas.Props.C52_slice_and_window",
    "Meanas.Props.C52_step",
    "Meanas.Props.C52_uniform_partial",
    "Meanas.Props.C52_off_by_one_partial"
   ],
   "note": "Proved for uniform spacing along the axis. False on non-uniform grids: the distance between planes i and i+1 is taken to be dx_e[i+1] (witness)."
  },
  {
   "property": "C53",
   "status": "partial",
   "theorems": [
    "Meanas.Props.C53_normalised_partial",
    "Meanas.Props.C53_defined_partial",
    "Meanas.Props.C53_nan_at_start_partial"
   ],
   "note": "Proved when the slice starts at index 2 or later. For polarity +1 and a slice starting below 2 the window is empty and the whole result is NaN."
  },
  {
   "property": "C54",
   "status": "proved",
   "theorems": [
    "Meanas.Props.C54_layers",
    "Meanas.Props.C54_unidirectional"
   ],
   "note": ""
  },
  {
   "property": "C55",
   "status": "proved",
   "theorems": [
    "Meanas.Props.C55_passive",
    "Meanas.Props.C55_mode_matching",
    "Meanas.Props.C55_identical",
    "Meanas.Props.C55_square"
   ],
   "note": "numpy.linalg enters through the contract LibOk, which is proved satisfiable (libOk_exists). get_tr only returns for equally many modes on both sides."
  },
  {
   "property": "C56",
   "status": "partial",
   "theorems": [
    "Meanas.Props.C56_abcd_partial",
    "Meanas.Props.C56_same_iff_partial",
    "Meanas.Props.C56_fails_partial",
    "Meanas.Props.C56_normalised_partial",
    "Meanas.Props.C56_single_mode_partial"
   ],
   "note": "The matrix that get_abcd assembles is right (the call itself raises, see C154). get_s has the two transmission blocks exchanged: the two agree if and only if t12 = t21 (witness: a rotation of the mode basis). For normalised modes t21 is the transpose of t12 (C114), so they agree exactly if t12 is symmetric, and always with a single mode."
  },
  {
   "property": "C57",
   "status": "partial",
   "theorems": [
    "Meanas.Props.C57_reciprocal",
    "Meanas.Props.C57_reciprocal_nearest",
    "Meanas.Props.C57_diagonal_partial",
    "Meanas.Props.C57_gain_partial"
   ],
   "note": "force_reciprocal and the diagonal S S^H of force_nogain (without force_reciprocal) hold. No-gain is false: the singular values are kept (witness: every input power is doubled)."
  },
  {
   "property": "C58",
   "status": "partial",
   "theorems": [
    "Meanas.Props.C58_frame_partial",
    "Meanas.Props.C58_fails_partial",
    "Meanas.Props.C58_cubic_partial"
   ],
   "note": "Proved for wave vectors with kx != 0 or ky = 0. False for all others: the mask looks at kx alone, so m is not orthogonal to k, and n is NaN when k is along y (happens on every grid with two cells along y for Bloch vectors along z or zero)."
  },
  {
   "property": "C59",
   "status": "partial",
   "theorems": [
    "Meanas.Props.C59_hermitian_partial",
    "Meanas.Props.C59_matrix_partial",
    "Meanas.Props.C59_nan_partial",
    "Meanas.Props.C59_nan_cubic_partial"
   ],
   "note": "Proved whenever no wave vector of the grid is along y; otherwise the operator returns NaN."
  },
  {
   "property": "C60",
   "status": "partial",
   "theorems": [
    "Meanas.Props.C60_uniform_partial",
    "Meanas.Props.C59_nan_partial"
   ],
   "note": "Proved whenever no wave vector is along y or zero; NaN if one is along y."
  },
  {
   "property": "C61",
   "status": "partial",
   "theorems": [
    "Meanas.Props.C61_transverse_partial",
    "Meanas.Props.C61_fails_partial",
    "Meanas.Props.C59_nan_partial"
   ],
   "note": "Proved if no wave vector has kx = 0, ky != 0; otherwise there are coefficients whose H, and others whose D, has a divergence."
  },
  {
   "property": "C62",
   "status": "partial",
   "theorems": [
    "Meanas.Props.C62_value_partial",
    "Meanas.Props.C62_polarised_partial",
    "Meanas.Props.C62_modifies_partial",
    "Meanas.Props.C62_fails_partial"
   ],
   "note": "False: a minus sign replaces a product in both cross products, and the arrays are scaled in place. The exact error term is proved; right for fields with Ey and Hz only."
  },
  {
   "property": "C63",
   "status": "proved",
   "theorems": [
    "Meanas.Props.C63_light_cone",
    "Meanas.Props.C63_total"
   ],
   "note": "Includes that no entry is NaN and that theta, phi are the angles of the wave vector. A single sample along x raises an IndexError."
  },
  {
   "property": "C64",
   "status": "partial",
   "theorems": [
    "Meanas.Props.C64_roundtrip_partial",
    "Meanas.Props.C64_nonsquare_partial",
    "Meanas.Props.C64_empty",
    "Meanas.Props.C64_padding",
    "Meanas.Props.C64_nan_partial",
    "Meanas.Props.C64_nan_fine_partial",
    "Meanas.Props.C64_finite_partial",
    "Meanas.Props.C64_dky_partial",
    "Meanas.Props.C64_chain_partial",
    "Meanas.Props.C64_array_step_partial"
   ],
   "note": "Proved for square grids inside the light cone with the right spacings given. False otherwise: other grids raise, one sample strictly beyond the light cone makes the whole near field NaN (every even grid with cells up to half a wavelength has such samples; without them the near field is finite), and the returned dky is zero."
  },
  {
   "property": "C65",
   "status": "partial",
   "theorems": [
    "Meanas.Props.C65_power_iteration",
    "Meanas.Props.C65_power_unit",
    "Meanas.Props.C65_power_eigenvector",
    "Meanas.Props.C65_rayleigh_partial",
    "Meanas.Props.C65_rayleigh_eigenvector",
    "Meanas.Props.C65_rayleigh_zero_partial",
    "Meanas.Props.C65_stale_eigenvalue_partial"
   ],
   "note": "Everything holds for power_iteration. rayleigh_quotient_iteration returns the Rayleigh quotient of the previous vector when the iterations run out (witness), and raises for iterations=0."
  },
  {
   "property": "C66",
   "status": "proved",
   "theorems": [
    "Meanas.Props.C66_signed",
    "Meanas.Props.C66_rough_estimate",
    "Meanas.Props.C66_too_small"
   ],
   "note": "scipy eigs enters as an oracle with the contract IsEigs; sizes n >= 2k+50 as scipy requires."
  },
  {
   "property": "C67",
   "status": "partial",
   "theorems": [
    "Meanas.Props.C67_ricker_turn_on_partial",
    "Meanas.Props.C67_default_turn_on"
   ],
   "note": "The claim is false for every root the solver may return; negation proved."
  },
  {
   "property": "C68",
   "status": "partial",
   "theorems": [
    "Meanas.Props.C68_relation_partial",
    "Meanas.Props.C68_whole_partial",
    "Meanas.Props.C68_differ_partial"
   ],
   "note": "False: the half-cell offsets of the two lists are exchanged and the profile is not divided by the thickness in uniform_grid_scpml. Exact relation proved for the front layer alone and for both layers one after the other (whole axis); witness of the difference."
  },
  {
   "property": "C69",
   "status": "partial",
   "theorems": [
    "Meanas.Props.C69_inner_product_orthogonal",
    "Meanas.Props.C69_exchanged_widths_partial",
    "Meanas.Props.C69_inner_product_orthogonality_fails_partial"
   ],
   "note": "Holds when the E and H widths agree, and on every real grid if the two lists of widths are passed exchanged. False otherwise: the weights are those of the other component (witness: two modes of a homogeneous cross-section)."
  },
  {
   "property": "C70",
   "status": "partial",
   "theorems": [
    "Meanas.Props.C70_positional_raises_partial",
    "Meanas.Props.C70_any_keywords_partial",
    "Meanas.Props.C70_bent_any_keywords_partial",
    "Meanas.Props.C70_keyword_partial",
    "Meanas.Props.C70_keyword_defaults_partial",
    "Meanas.Props.C70_lossless_partial",
    "Meanas.Props.C70_bent_positional_raises_partial",
    "Meanas.Props.C70_bent_keyword_partial",
    "Meanas.Props.C70_bent_keyword_defaults_partial",
    "Meanas.Props.C70_bent_lossless_partial"
   ],
   "note": "False for positional arguments: mode_numbers is then passed twice and a TypeError is raised. Holds for keyword arguments."
  },
  {
   "property": "C71",
   "status": "proved",
   "theorems": [
    "Meanas.Props.C71_power_converges"
   ],
   "note": ""
  },
  {
   "property": "C72",
   "status": "partial",
   "theorems": [
    "Meanas.Props.C72_uniform_partial",
    "Meanas.Props.C72_steps_partial",
    "Meanas.Props.C72_nonuniform_partial"
   ],
   "note": "Holds on grids uniform along x. False wherever two neighbouring widths differ: ra steps by the width of the next cell."
  },
  {
   "property": "C73",
   "status": "proved",
   "theorems": [
    "Meanas.Props.C73_unit_power"
   ],
   "note": ""
  },
  {
   "property": "C74",
   "status": "partial",
   "theorems": [
    "Meanas.Props.C74_lossless_partial",
    "Meanas.Props.C74_no_margin_partial",
    "Meanas.Props.C74_propagating_partial",
    "Meanas.Props.C74_evanescent_partial"
   ],
   "note": "As C46: proved for propagating modes; evanescent modes get the angular wavenumber 0 and the output is sorted."
  },
  {
   "property": "C75",
   "status": "partial",
   "theorems": [
    "Meanas.Props.C75_curl_curl_partial"
   ],
   "note": "Proved if no wave vector of the grid has kx = 0, ky != 0 (see C58)."
  },
  {
   "property": "C76",
   "status": "partial",
   "theorems": [
    "Meanas.Props.C76_raises_partial",
    "Meanas.Props.C76_never_returns_partial",
    "Meanas.Props.C76_returns",
    "Meanas.Props.C76_wrong_partial"
   ],
   "note": "False: an AssertionError is raised for every field polarised along y, since inner_product scales the arrays anew in each of the four calls. Where numbers are returned they satisfy 4t = (r^2-1) pn, r pn = -pp; a field against its own copy can give a transmission of magnitude other than 1."
  },
  {
   "property": "C77",
   "status": "proved",
   "theorems": [
    "Meanas.Props.C77_line_search",
    "Meanas.Props.C77_descent",
    "Meanas.Props.C77_run_descent",
    "Meanas.Props.C77_singular_angle"
   ],
   "note": "The line search result enters through the hypothesis that it is no worse than angle 0."
  },
  {
   "property": "C78",
   "status": "partial",
   "theorems": [
    "Meanas.Props.C78_ritz_partial",
    "Meanas.Props.C78_frequencies_partial",
    "Meanas.Props.C78_stale_partial"
   ],
   "note": "Proved when the loop stops by its convergence test; the library contract is proved satisfiable (solveLibOk_exists). False when the iterations run out: the Gram matrix used in the recovery belongs to the previous block (witness)."
  },
  {
   "property": "C79",
   "status": "partial",
   "theorems": [
    "Meanas.Props.C79_find_k_partial"
   ],
   "note": "False: find_k always raises a TypeError, since it converts a vector to a float."
  },
  {
   "property": "C80",
   "status": "proved",
   "theorems": [
    "Meanas.Props.C80_outgoing",
    "Meanas.Props.C80_incoming"
   ],
   "note": "For a spectrum at the sample computed from the cell positions, not from the FFT."
  },
  {
   "property": "C81",
   "status": "partial",
   "theorems": [
    "Meanas.Props.C81_radiation_partial",
    "Meanas.Props.C81_padded_partial",
    "Meanas.Props.C81_fails_partial"
   ],
   "note": "Proved without padding. False with padding: zeros are appended after the halves were swapped, so the result is that of a near field with swapped halves (exact statement proved, with a witness for the default padded size)."
  },
  {
   "property": "C82",
   "status": "proved",
   "theorems": [
    "Meanas.Props.C82_reciprocity",
    "Meanas.Props.C82_solver",
    "Meanas.Props.C82_magnetic"
   ],
   "note": ""
  },
  {
   "property": "C83",
   "status": "proved",
   "theorems": [
    "Meanas.Props.C83_absorbed_power",
    "Meanas.Props.C83_unique",
    "Meanas.Props.C83_exists_unique",
    "Meanas.Props.C83_solver",
    "Meanas.Props.C83_bound"
   ],
   "note": "generic enters with a matrix solver that is exact whenever a solution exists (as in C32)."
  },
  {
   "property": "C84",
   "status": "proved",
   "theorems": [
    "Meanas.Props.C84_e_full",
    "Meanas.Props.C84_h_full",
    "Meanas.Props.C84_maps",
    "Meanas.Props.C84_solution",
    "Meanas.Props.C84_fdtd"
   ],
   "note": ""
  },
  {
   "property": "C85",
   "status": "proved",
   "theorems": [
    "Meanas.Props.C85_deriv_zero",
    "Meanas.Props.C85_width_irrelevant",
    "Meanas.Props.C85_width_irrelevant_fdtd",
    "Meanas.Props.C85_scalar",
    "Meanas.Props.C85_decoupled"
   ],
   "note": ""
  },
  {
   "property": "C86",
   "status": "proved",
   "theorems": [
    "Meanas.Props.C86_e_full",
    "Meanas.Props.C86_e2h"
   ],
   "note": "The FDTD counterpart is C16."
  },
  {
   "property": "C87",
   "status": "proved",
   "theorems": [
    "Meanas.Props.C87_samples",
    "Meanas.Props.C87_paraxial_equation",
    "Meanas.Props.C87_radius"
   ],
   "note": "Where the code returns NaN is the subject of C23."
  },
  {
   "property": "C88",
   "status": "proved",
   "theorems": [
    "Meanas.Props.C88_attenuation"
   ],
   "note": ""
  },
  {
   "property": "C89",
   "status": "partial",
   "theorems": [
    "Meanas.Props.C89_mu_raises_partial",
    "Meanas.Props.C89_inverse_mu_wrong_partial",
    "Meanas.Props.C89_inverse_mu_mixing_partial"
   ],
   "note": "False of the code: maxwell_operator raises whenever mu is given, and inverse_maxwell_operator_approx with mu returns wrong values on cubic grids (zero on a single cell)."
  },
  {
   "property": "C90",
   "status": "proved",
   "theorems": [
    "Meanas.Props.C90_e_full",
    "Meanas.Props.C90_e2h",
    "Meanas.Props.C90_fdtd"
   ],
   "note": ""
  },
  {
   "property": "C91",
   "status": "proved",
   "theorems": [
    "Meanas.Props.C91_e_full",
    "Meanas.Props.C91_e2h",
    "Meanas.Props.C91_fdtd",
    "Meanas.Props.C91_symmetric_run"
   ],
   "note": ""
  },
  {
   "property": "C92",
   "status": "proved",
   "theorems": [
    "Meanas.Props.C92_unstable",
    "Meanas.Props.C92_marginal",
    "Meanas.Props.C92_sharp"
   ],
   "note": ""
  },
  {
   "property": "C93",
   "status": "proved",
   "theorems": [
    "Meanas.Props.C93_power"
   ],
   "note": ""
  },
  {
   "property": "C94",
   "status": "proved",
   "theorems": [
    "Meanas.Props.C94_end_to_end"
   ],
   "note": "ARPACK enters through its contract (it returns the requested largest eigenpairs); real spectrum and the bound on the estimate are hypotheses."
  },
  {
   "property": "C95",
   "status": "partial",
   "theorems": [
    "Meanas.Props.C95_scpml_effect",
    "Meanas.Props.C95_scpml_overwrites_partial",
    "Meanas.Props.C95_power_keeps_arguments",
    "Meanas.Props.C95_rqi_effect",
    "Meanas.Props.C95_guess_overwritten_partial",
    "Meanas.Props.C95_rqi_poisoned_guess_partial",
    "Meanas.Props.C95_bloch_effect",
    "Meanas.Props.C95_bloch_replaced_guess",
    "Meanas.Props.C95_bloch_guess_overwritten_partial"
   ],
   "note": "False of the code for stretch_with_scpml, rayleigh_quotient_iteration and eigsolve, and for power_iteration without iterations. The exact effects are proved."
  },
  {
   "property": "C96",
   "status": "proved",
   "theorems": [
    "Meanas.Props.C96_attenuation",
    "Meanas.Props.C96_equipartition",
    "Meanas.Props.C96_lossless",
    "Meanas.Props.C96_passive",
    "Meanas.Props.C96_normalized_fields"
   ],
   "note": ""
  },
  {
   "property": "C97",
   "status": "proved",
   "theorems": [
    "Meanas.Props.C97_group_velocity",
    "Meanas.Props.C97_normalized_fields"
   ],
   "note": ""
  },
  {
   "property": "C98",
   "status": "proved",
   "theorems": [
    "Meanas.Props.C98_index_bound"
   ],
   "note": ""
  },
  {
   "property": "C99",
   "status": "proved",
   "theorems": [
    "Meanas.Props.C99_independent_guess",
    "Meanas.Props.C99_redraw",
    "Meanas.Props.C99_deterministic",
    "Meanas.Props.C99_too_many_modes"
   ],
   "note": "scipy.linalg.sqrtm enters with its contract. Exact arithmetic: a guess is dependent iff its Gram matrix is singular."
  },
  {
   "property": "C100",
   "status": "proved",
   "theorems": [
    "Meanas.Props.C100_cell",
    "Meanas.Props.C100_surface",
    "Meanas.Props.C100_magnetic_current",
    "Meanas.Props.C100_average_power",
    "Meanas.Props.C100_same_power"
   ],
   "note": ""
  },
  {
   "property": "C101",
   "status": "proved",
   "theorems": [
    "Meanas.Props.C101_steady_state",
    "Meanas.Props.C101_regular",
    "Meanas.Props.C101_absorbs",
    "Meanas.Props.C101_factor"
   ],
   "note": ""
  },
  {
   "property": "C102",
   "status": "proved",
   "theorems": [
    "Meanas.Props.C102_reversed_fields",
    "Meanas.Props.C102_backward_mode",
    "Meanas.Props.C102_wrong_direction",
    "Meanas.Props.C102_time_reversal",
    "Meanas.Props.C102_real_fields"
   ],
   "note": ""
  },
  {
   "property": "C103",
   "status": "proved",
   "theorems": [
    "Meanas.Props.C103_exact",
    "Meanas.Props.C103_gradient_conductors",
    "Meanas.Props.C103_gradient",
    "Meanas.Props.C103_solver"
   ],
   "note": ""
  },
  {
   "property": "C104",
   "status": "proved",
   "theorems": [
    "Meanas.Props.C104_deriv_forward",
    "Meanas.Props.C104_deriv_back",
    "Meanas.Props.C104_curl_forward",
    "Meanas.Props.C104_curl_back",
    "Meanas.Props.C104_step"
   ],
   "note": ""
  },
  {
   "property": "C105",
   "status": "proved",
   "theorems": [
    "Meanas.Props.C105_perturbed_run",
    "Meanas.Props.C105_convergence",
    "Meanas.Props.C105_second_order"
   ],
   "note": ""
  },
  {
   "property": "C106",
   "status": "proved",
   "theorems": [
    "Meanas.Props.C106_bound",
    "Meanas.Props.C106_error",
    "Meanas.Props.C106_second_order"
   ],
   "note": ""
  },
  {
   "property": "C107",
   "status": "proved",
   "theorems": [
    "Meanas.Props.C107_divergence",
    "Meanas.Props.C107_region_yee",
    "Meanas.Props.C107_region",
    "Meanas.Props.C107_two_surfaces"
   ],
   "note": ""
  },
  {
   "property": "C108",
   "status": "proved",
   "theorems": [
    "Meanas.Props.C108_conjugate",
    "Meanas.Props.C108_conjugate_h",
    "Meanas.Props.C108_negative_frequency",
    "Meanas.Props.C108_scpml",
    "Meanas.Props.C108_time_reversal",
    "Meanas.Props.C108_quadrature"
   ],
   "note": ""
  },
  {
   "property": "C109",
   "status": "partial",
   "theorems": [
    "Meanas.Props.C109_operator_partial",
    "Meanas.Props.C109_fields_partial",
    "Meanas.Props.C109_bands_partial",
    "Meanas.Props.C109_even_partial"
   ],
   "note": "Proved on grids with an odd number of cells along every axis. False with an even number: the grid contains the plane wave -N/2 but not N/2 (C109_even_partial: in vacuum, a band at k that is none at -k)."
  },
  {
   "property": "C110",
   "status": "proved",
   "theorems": [
    "Meanas.Props.C110_operator",
    "Meanas.Props.C110_fields",
    "Meanas.Props.C110_bands",
    "Meanas.Props.C110_eps",
    "Meanas.Props.C110_lattice"
   ],
   "note": ""
  },
  {
   "property": "C111",
   "status": "proved",
   "theorems": [
    "Meanas.Props.C111_monotone",
    "Meanas.Props.C111_stable"
   ],
   "note": "The restriction to Bloch vectors without a wave vector along y is part of the quantifier: otherwise the operator is NaN (C59)."
  },
  {
   "property": "C112",
   "status": "proved",
   "theorems": [
    "Meanas.Props.C112_upper_bound",
    "Meanas.Props.C112_residual",
    "Meanas.Props.C112_maxwell"
   ],
   "note": "Runs that exhaust max_iters are excluded by the statement; their values are wrong (C78_stale_partial)."
  },
  {
   "property": "C113",
   "status": "partial",
   "theorems": [
    "Meanas.Props.C113_two_modes_partial",
    "Meanas.Props.C113_slope_partial",
    "Meanas.Props.C113_group_velocity_partial",
    "Meanas.Props.C113_fails_partial"
   ],
   "note": "Proved wherever no wave vector of the grid has kx = 0, ky != 0 (where `generate_kmn` returns a frame that is not orthogonal to k, see C58); the differentiability of the band is a conclusion, only continuity of H is assumed. C113_fails_partial: on every nonempty grid the claim is false along a line of Bloch vectors with such wave vectors."
  },
  {
   "property": "C114",
   "status": "proved",
   "theorems": [
    "Meanas.Props.C114_reciprocal",
    "Meanas.Props.C114_matching",
    "Meanas.Props.C114_lossless"
   ],
   "note": "The uniqueness of U f(s) V over all singular value decompositions and the transposition of least-squares solutions are proved (Props/EmeReciprocity.lean); invertibility of the overlap matrix is not assumed. Example: Fresnel coefficients 4/5 and -3/5 of an index step 1 to 4."
  },
  {
   "property": "C115",
   "status": "proved",
   "theorems": [
    "Meanas.Props.C115_finite",
    "Meanas.Props.C115_at_rest",
    "Meanas.Props.C115_no_resonance",
    "Meanas.Props.C115_pulse"
   ],
   "note": "The signs are those the FDFD operators use (time dependence e^{+iwt}, see C35). The limit statement is for real (lossless) epsilon and mu; the finite statement is for complex ones too. Without PEC/PMC masks."
  },
  {
   "property": "C116",
   "status": "proved",
   "theorems": [
    "Meanas.Props.C116_reciprocity",
    "Meanas.Props.C116_exchange",
    "Meanas.Props.C116_mixed"
   ],
   "note": "Grids given by dxes. Scripts without CPML and without the conducting-boundary updaters."
  },
  {
   "property": "C117",
   "status": "proved",
   "theorems": [
    "Meanas.Props.C117_phase_velocity",
    "Meanas.Props.C117_frequency",
    "Meanas.Props.C117_magic",
    "Meanas.Props.C117_fdfd",
    "Meanas.Props.C117_pulse",
    "Meanas.Props.C117_revival"
   ],
   "note": "Frequencies above pi/dt are aliases and excluded. The dispersion relation itself is C36."
  },
  {
   "property": "C118",
   "status": "proved",
   "theorems": [
    "Meanas.Props.C118_monotone",
    "Meanas.Props.C118_eigenvalue",
    "Meanas.Props.C118_cubic",
    "Meanas.Props.C118_not_hermitian"
   ],
   "note": "Exact arithmetic, exact inner solver; calls that return NaN or raise return no pair. C118_not_hermitian shows that the hypothesis is needed: a 2x2 operator that is not Hermitian on which one exact step doubles the residual. The waveguide operators are not Hermitian in general, for them only C65 applies."
  },
  {
   "property": "C119",
   "status": "partial",
   "theorems": [
    "Meanas.Props.C119_unitary_partial",
    "Meanas.Props.C119_power_partial",
    "Meanas.Props.C119_get_s_partial",
    "Meanas.Props.C119_gain_partial"
   ],
   "note": "True of the four matrices that get_tr returns (C119_unitary_partial, C119_power_partial). get_s places the transmission blocks at exchanged positions (C56): its matrix is symmetric, and unitary if the transmission matrix is symmetric (C119_get_s_partial), but for a lossless birefringent step with the modes listed in different order on the two sides it amplifies incident light by 36 % (C119_gain_partial)."
  },
  {
   "property": "C120",
   "status": "proved",
   "theorems": [
    "Meanas.Props.C120_transform",
    "Meanas.Props.C120_params",
    "Meanas.Props.C120_damped",
    "Meanas.Props.C120_solution"
   ],
   "note": "The grid is that of C101: cells of the layers are multiplied by the stretch factor of the CPML recursion. Convergence at real frequencies is a hypothesis of C120_transform; C120_damped proves it for all bounded currents at sufficiently damped frequencies."
  },
  {
   "property": "C121",
   "status": "proved",
   "theorems": [
    "Meanas.Props.C121_trial",
    "Meanas.Props.C121_monotone",
    "Meanas.Props.C121_harmonic_mean",
    "Meanas.Props.C121_fundamental"
   ],
   "note": "Periodic boundaries of the cross-section, as in the code. C121_fundamental uses the upper bound of C98."
  },
  {
   "property": "C122",
   "status": "proved",
   "theorems": [
    "Meanas.Props.C122_group_index",
    "Meanas.Props.C122_dispersion"
   ],
   "note": "The branch is assumed continuous, as in C97; modes without net power are excluded (cut-off)."
  },
  {
   "property": "C123",
   "status": "proved",
   "theorems": [
    "Meanas.Props.C123_translate",
    "Meanas.Props.C123_mirror",
    "Meanas.Props.C123_exchange",
    "Meanas.Props.C123_scale",
    "Meanas.Props.C123_parity"
   ],
   "note": ""
  },
  {
   "property": "C124",
   "status": "proved",
   "theorems": [
    "Meanas.Props.C124_finite",
    "Meanas.Props.C124_solvable",
    "Meanas.Props.C124_only_if",
    "Meanas.Props.C124_solver",
    "Meanas.Props.C124_rayleigh",
    "Meanas.Props.C124_real",
    "Meanas.Props.C124_orthogonal",
    "Meanas.Props.C124_complete",
    "Meanas.Props.C124_total",
    "Meanas.Props.C124_monotone"
   ],
   "note": "Resonances are the frequencies with a source-free solution of the modelled e_full; multiplicity is the dimension of the span of the resonant fields. The sparse solver is a parameter, assumed to solve every solvable system."
  },
  {
   "property": "C125",
   "status": "proved",
   "theorems": [
    "Meanas.Props.C125_highest",
    "Meanas.Props.C125_ringing",
    "Meanas.Props.C125_spectrum",
    "Meanas.Props.C125_peak"
   ],
   "note": "For runs with given cell widths, no conductors and no sources. The example is a field of a cube of eight cells that is resonant at a positive frequency."
  },
  {
   "property": "C126",
   "status": "partial",
   "theorems": [
    "Meanas.Props.C126_image_partial"
   ],
   "note": "As in C18, numpy >= 2 rejects the list indices, so the updaters raise; the principle is proved for the meaning of the indices as tuples. The mirrors are magnetic conductors: tangential H and normal E vanish on them."
  },
  {
   "property": "C127",
   "status": "partial",
   "theorems": [
    "Meanas.Props.C127_projection_partial",
    "Meanas.Props.C127_backward_partial",
    "Meanas.Props.C127_other_mode_partial"
   ],
   "note": "False of the code: it projects on the electric field without weights and without the magnetic field. The exact value is proved for uniform spacing along the axis and real wavenumbers; the counter-propagating copy is counted with weight at least |cos(k d)| (T - L)/(T + L); on a non-uniform grid two orthogonal modes of vacuum have a nonzero overlap. Missing: nothing more holds."
  },
  {
   "property": "C128",
   "status": "partial",
   "theorems": [
    "Meanas.Props.C128_direction",
    "Meanas.Props.C128_stationary",
    "Meanas.Props.C128_progress",
    "Meanas.Props.C128_bloch_partial",
    "Meanas.Props.C128_exact_guess_partial",
    "Meanas.Props.C128_conjugate",
    "Meanas.Props.C128_progress_between",
    "Meanas.Props.C128_run",
    "Meanas.Props.C128_bloch_run_partial",
    "Meanas.Props.C128_defined",
    "Meanas.Props.C128_one_mode"
   ],
   "note": "False of the code for exact guesses: the first pass divides by the norm of a zero direction and everything becomes NaN. The direction, the stationary points, conjugacy and strict progress of every pass of a run are proved in general; for the Maxwell operator on the grids where it is defined. That passes do not raise is proved for one mode; with more, trial blocks can lose rank (C77_singular_angle)."
  },
  {
   "property": "C129",
   "status": "proved",
   "theorems": [
    "Meanas.Props.C129_residual",
    "Meanas.Props.C129_samples",
    "Meanas.Props.C129_second_order",
    "Meanas.Props.C129_rings",
    "Meanas.Props.C129_fdtd"
   ],
   "note": "Smooth means three derivatives along each axis, the third bounded. The resonances found are those near a resonance of Maxwell's equations; that the grid has no others near is not claimed. The example is the standing wave of a box in vacuum."
  },
  {
   "property": "C130",
   "status": "proved",
   "theorems": [
    "Meanas.Props.C130_differences",
    "Meanas.Props.C130_consistent",
    "Meanas.Props.C130_residual",
    "Meanas.Props.C130_second_order"
   ],
   "note": "Convergence is stated at fixed wavenumber (the frequency at which the grid has exactly this wavenumber), where the problem is a definite eigenvalue problem; the cross-section is periodic as the operators are. That the grid has no other modes near is not claimed. The example is a wave crossing a homogeneous medium at an angle."
  },
  {
   "property": "C131",
   "status": "proved",
   "theorems": [
    "Meanas.Props.C131_box",
    "Meanas.Props.C131_waveguide",
    "Meanas.Props.C131_bloch"
   ],
   "note": "The periodic grid is the one the operators use."
  },
  {
   "property": "C132",
   "status": "partial",
   "theorems": [
    "Meanas.Props.C132_documented_widths_partial",
    "Meanas.Props.C132_refinement_partial",
    "Meanas.Props.C132_no_positions_partial",
    "Meanas.Props.C132_consistent_widths"
   ],
   "note": "False wherever a cell and the next one differ: the derivative of the coordinate comes out as dx'/dx and dx/dx', refinement keeps the factor, and no positions fit the two lists. Proved right: the exchanged lists [dx', dx] at the documented positions, or [dx, (dx[m-1] + dx[m]) / 2] with E at the left ends of the cells, which is the grid of C133."
  },
  {
   "property": "C133",
   "status": "proved",
   "theorems": [
    "Meanas.Props.C133_deriv_forward",
    "Meanas.Props.C133_curl_forward",
    "Meanas.Props.C133_curl_back",
    "Meanas.Props.C133_fdtd_error",
    "Meanas.Props.C133_fdtd_second_order",
    "Meanas.Props.C133_fdfd_error",
    "Meanas.Props.C133_fdfd_second_order"
   ],
   "note": "Errors are measured in the energy norm of the grid (cell volumes times media). The H widths are not the ones the documentation suggests, see C132."
  },
  {
   "property": "C134",
   "status": "proved",
   "theorems": [
    "Meanas.Props.C134_surface",
    "Meanas.Props.C134_planes",
    "Meanas.Props.C134_mode_overlap",
    "Meanas.Props.C134_conjugate_surface",
    "Meanas.Props.C134_power_planes"
   ],
   "note": "No PEC/PMC masks. The mode corollary is for polarity +1 in a guide whose cross-section window is the whole cross-section (C51 for the limits of expand_e)."
  },
  {
   "property": "C135",
   "status": "proved",
   "theorems": [
    "Meanas.Props.C135_exact",
    "Meanas.Props.C135_balance",
    "Meanas.Props.C135_shift",
    "Meanas.Props.C135_lossless",
    "Meanas.Props.C135_decay",
    "Meanas.Props.C135_damped"
   ],
   "note": "The widths are held fixed along the branch (an SCPML that depends on the frequency is not varied with it)."
  },
  {
   "property": "C136",
   "status": "proved",
   "theorems": [
    "Meanas.Props.C136_two_media",
    "Meanas.Props.C136_slope",
    "Meanas.Props.C136_frequency"
   ],
   "note": "Holds also where the basis of generate_kmn is wrong (C58), since only the operator and hmn_2_exyz enter; where the operator is NaN there are no modes. Non-magnetic (mu=None)."
  },
  {
   "property": "C137",
   "status": "partial",
   "theorems": [
    "Meanas.Props.C137_get_tr",
    "Meanas.Props.C137_get_abcd",
    "Meanas.Props.C137_get_s_partial",
    "Meanas.Props.C137_reciprocal_phase_fails_partial"
   ],
   "note": "get_tr and the matrix assembled by get_abcd (which raises when it is returned, see C154) are covariant for all phases and orders. get_s without options keeps all magnitudes; with force_reciprocal this holds for sign changes only: for any waveguide joined to itself whose modes are a quarter period out of phase on the right, get_s(force_reciprocal=True) returns the zero matrix. force_nogain is not covered here, see C57."
  },
  {
   "property": "C138",
   "status": "proved",
   "theorems": [
    "Meanas.Props.C138_rounded_run",
    "Meanas.Props.C138_linear_growth",
    "Meanas.Props.C138_exact",
    "Meanas.Props.C138_rounding_function",
    "Meanas.Props.C138_nearest"
   ],
   "note": "Model/FdtdFloat.lean: each array operation of the updates returns any value with relative error at most u. Overflow and underflow are not modelled. C138_exact: with u = 0 the model is the exact one; C138_rounding_function: every rounding function with relative error u gives a run of the model; C138_nearest: rounding to the nearest number with a given number of binary digits."
  },
  {
   "property": "C139",
   "status": "partial",
   "theorems": [
    "Meanas.Props.C139_packet_spectrum",
    "Meanas.Props.C139_packet_real_spectrum",
    "Meanas.Props.C139_packet_energy",
    "Meanas.Props.C139_packet_width_partial",
    "Meanas.Props.C139_packet_time_width_partial",
    "Meanas.Props.C139_ricker_spectrum",
    "Meanas.Props.C139_ricker_peak"
   ],
   "note": "Everything holds except the width: the code uses alpha = fwhm^2 log(2)/8 where its docstring implies fwhm^2/(16 log(2)), so the full width at half maximum is sqrt(2) log(2) = 0.980 times the documented one (C139_packet_width_partial). The FWHM_time of the docstring is twice the width of the envelope (C139_packet_time_width_partial). The pulses are read as functions of the real time ii*dt; sampling at integer ii is not covered. one_sided is excluded."
  },
  {
   "property": "C140",
   "status": "proved",
   "theorems": [
    "Meanas.Props.C140_operator",
    "Meanas.Props.C140_modes",
    "Meanas.Props.C140_fields",
    "Meanas.Props.C140_orthogonal",
    "Meanas.Props.C140_attenuation",
    "Meanas.Props.C140_lossless",
    "Meanas.Props.C140_monotone",
    "Meanas.Props.C140_guided",
    "Meanas.Props.C140_fundamental",
    "Meanas.Props.C140_group",
    "Meanas.Props.C140_second",
    "Meanas.Props.C140_solver"
   ],
   "note": "Periodic boundaries of the cross-section, as in the code. The branch of C140_group is assumed continuous, as in C97."
  },
  {
   "property": "C141",
   "status": "proved",
   "theorems": [
    "Meanas.Props.C141_exact",
    "Meanas.Props.C141_gradient",
    "Meanas.Props.C141_cell"
   ],
   "note": "Grids given by dxes. Scripts without CPML and without the conducting-boundary updaters."
  },
  {
   "property": "C142",
   "status": "proved",
   "theorems": [
    "Meanas.Props.C142_amplitude",
    "Meanas.Props.C142_expansion",
    "Meanas.Props.C142_peak",
    "Meanas.Props.C142_fredholm",
    "Meanas.Props.C142_reactive",
    "Meanas.Props.C142_foster",
    "Meanas.Props.C142_monotone",
    "Meanas.Props.C142_antiresonance"
   ],
   "note": "Exact arithmetic; by C124_solver the field is the one generic() returns outside the conductor when its matrix solver is exact."
  },
  {
   "property": "C143",
   "status": "proved",
   "theorems": [
    "Meanas.Props.C143_conductor",
    "Meanas.Props.C143_bounded",
    "Meanas.Props.C143_decays"
   ],
   "note": "Exact arithmetic. The component along the axis is not affected by the layers and is not part of the statement about decay."
  },
  {
   "property": "C144",
   "status": "proved",
   "theorems": [
    "Meanas.Props.C144_power",
    "Meanas.Props.C144_unique",
    "Meanas.Props.C144_exists_unique",
    "Meanas.Props.C144_solver",
    "Meanas.Props.C144_uniform",
    "Meanas.Props.C144_stretch",
    "Meanas.Props.C144_stretch_both"
   ],
   "note": "One dimension (a grid one cell wide across the axis of the layers), no PEC/PMC masks, e^{+i omega t} convention of the library (omega > 0)."
  },
  {
   "property": "C145",
   "status": "proved",
   "theorems": [
    "Meanas.Props.C145_scattered",
    "Meanas.Props.C145_polarisation",
    "Meanas.Props.C145_magnetic",
    "Meanas.Props.C145_optical",
    "Meanas.Props.C145_passive",
    "Meanas.Props.C145_extinction",
    "Meanas.Props.C145_fdtd"
   ],
   "note": "C145_magnetic without PEC/PMC masks and with the sign of operators.m2j (functional.m2j has the opposite sign, see the disagreement recorded for C24)."
  },
  {
   "property": "C146",
   "status": "proved",
   "theorems": [
    "Meanas.Props.C146_interface",
    "Meanas.Props.C146_power",
    "Meanas.Props.C146_fresnel",
    "Meanas.Props.C146_staircase",
    "Meanas.Props.C146_layer"
   ],
   "note": "The equation is asserted in the inner cells 0 < i < n-1; the two outermost cells couple through the periodic wrap and hold the source or absorber."
  },
  {
   "property": "C147",
   "status": "proved",
   "theorems": [
    "Meanas.Props.C147_h_full",
    "Meanas.Props.C147_fields",
    "Meanas.Props.C147_fdtd",
    "Meanas.Props.C147_operator_h",
    "Meanas.Props.C147_mode",
    "Meanas.Props.C147_conversions"
   ],
   "note": "The dual cells are given by explicit index maps (back, toE, toH), independent of the operators."
  },
  {
   "property": "C148",
   "status": "proved",
   "theorems": [
    "Meanas.Props.C148_fixed",
    "Meanas.Props.C148_conserved_e",
    "Meanas.Props.C148_conserved_h",
    "Meanas.Props.C148_only",
    "Meanas.Props.C148_residual",
    "Meanas.Props.C148_after_sources",
    "Meanas.Props.C148_point_source"
   ],
   "note": "Periodic boundaries as in the plain updates; no CPML or conducting boundary."
  },
  {
   "property": "C149",
   "status": "proved",
   "theorems": [
    "Meanas.Props.C149_local",
    "Meanas.Props.C149_splits",
    "Meanas.Props.C149_entries",
    "Meanas.Props.C149_shielded",
    "Meanas.Props.C149_dark",
    "Meanas.Props.C149_magnetic_field",
    "Meanas.Props.C149_generic",
    "Meanas.Props.C149_magnetic_wall",
    "Meanas.Props.C149_box",
    "Meanas.Props.C149_dark_box",
    "Meanas.Props.C149_magnetic_box"
   ],
   "note": "Loss (or gain) of one sign is assumed only where uniqueness of the solution is needed; generic enters with an exact matrix solver as in C32 and solvable problems."
  },
  {
   "property": "C150",
   "status": "proved",
   "theorems": [
    "Meanas.Props.C150_fdtd",
    "Meanas.Props.C150_e_full",
    "Meanas.Props.C150_h_full",
    "Meanas.Props.C150_solutions",
    "Meanas.Props.C150_conversions",
    "Meanas.Props.C150_upml",
    "Meanas.Props.C150_upml_stretch",
    "Meanas.Props.C150_modes",
    "Meanas.Props.C150_operator_e"
   ],
   "note": "stretch_with_scpml as in C38_layer_only: positive real grid, profile real on the reals, thickness at least 1."
  },
  {
   "property": "C151",
   "status": "partial",
   "theorems": [
    "Meanas.Props.C151_curl",
    "Meanas.Props.C151_updates",
    "Meanas.Props.C151_wave",
    "Meanas.Props.C151_poynting",
    "Meanas.Props.C151_poynting_partial",
    "Meanas.Props.C151_expand_partial",
    "Meanas.Props.C151_cpml",
    "Meanas.Props.C151_cpml_mixed",
    "Meanas.Props.C151_integer_partial"
   ],
   "note": "Curls and updates: proved (value or exception, with the exact condition). Poynting vectors and expand_e: exact when the type of e is the largest; otherwise negation proved with witnesses on every grid (real part only, no exception). CPML: exact condition for real/complex fields. Kinds only: float32/float64 rounding is not distinguished."
  },
  {
   "property": "C152",
   "status": "proved",
   "theorems": [
    "Meanas.Props.C152_layers",
    "Meanas.Props.C152_open",
    "Meanas.Props.C152_free",
    "Meanas.Props.C152_converges",
    "Meanas.Props.C152_one_sided",
    "Meanas.Props.C152_meets"
   ],
   "note": "One-dimensional grids (one cell along the two other axes), uniform widths before the stretch. exp(ln_R) is the amplitude, the power is exp(2 ln_R) (the docstring says reflectance). The constant C is not explicit. uniform_grid_scpml uses other profiles (C68) and is not covered."
  },
  {
   "property": "C153",
   "status": "proved",
   "theorems": [
    "Meanas.Props.C153_layers",
    "Meanas.Props.C153_open",
    "Meanas.Props.C153_free",
    "Meanas.Props.C153_regular",
    "Meanas.Props.C153_converges",
    "Meanas.Props.C153_meets"
   ],
   "note": "Components of E across the axis of the layers; cells of equal width along the axis before stretching; permeability 1. Evanescent components enter the uniqueness theorem only. The component along the axis follows from the other two by the divergence equation and is not stated separately."
  },
  {
   "property": "C154",
   "status": "partial",
   "theorems": [
    "Meanas.Props.C154_accepts_iff",
    "Meanas.Props.C154_raises_partial",
    "Meanas.Props.C154_scatters_but_raises_partial",
    "Meanas.Props.C154_repaired_partial"
   ],
   "note": "False of the code: get_abcd gives four dense arrays of one shape to scipy.sparse.block_array, which turns the table into an object array with four axes and raises ValueError: blocks must be 2-D. It raises for every input. Proved: the check accepts a table of equal entries exactly if they are not dense arrays; with the blocks converted to sparse arrays first, the call returns the matrix C56 and C137 are about."
  },
  {
   "property": "C155",
   "status": "partial",
   "theorems": [
    "Meanas.Props.C155_source",
    "Meanas.Props.C155_overlap_partial",
    "Meanas.Props.C155_none_raises_partial",
    "Meanas.Props.C155_negative_nan_partial",
    "Meanas.Props.C155_negative_defined_partial"
   ],
   "note": "Proved for compute_source. False of compute_overlap_e, which does arithmetic on slices[axis].start: negations proved for None, for planes -1 and -2 (polarity -1) and for plane 1-n (polarity +1); C155_overlap_partial gives the spellings for which it holds."
  },
  {
   "property": "C156",
   "status": "partial",
   "theorems": [
    "Meanas.Props.C156_residual_partial",
    "Meanas.Props.C156_adjoint_residual_partial",
    "Meanas.Props.C156_error_partial",
    "Meanas.Props.C156_silent_partial"
   ],
   "note": "Proved under reported convergence; negation proved for a solver that stops without converging. Exact arithmetic: the residual recursion inside qmr is not modelled, only its promise. The adjoint branch raises with scipy >= 1.14 (C32); C156_adjoint_residual_partial is about arrays with .H."
  },
  {
   "property": "C157",
   "status": "proved",
   "theorems": [
    "Meanas.Props.C157_fdtd_tile",
    "Meanas.Props.C157_fdtd_fold",
    "Meanas.Props.C157_e_full_tile",
    "Meanas.Props.C157_e_full_fold",
    "Meanas.Props.C157_solutions",
    "Meanas.Props.C157_resonances",
    "Meanas.Props.C157_generic"
   ],
   "note": "The fold theorems (sums over copies) make the solution theorem an equivalence; lossy case uses C83 uniqueness. Repetition is written with the remainder of the index (Fin.modNat)."
  },
  {
   "property": "C158",
   "status": "proved",
   "theorems": [
    "Meanas.Props.C158_operator",
    "Meanas.Props.C158_bands",
    "Meanas.Props.C158_fields",
    "Meanas.Props.C158_phase"
   ],
   "note": "The range of offsets j is 0..N-1 for an even number of cells and -(N/2).. for an odd number, which makes fftfreq of the supercell N*fftfreq + j exactly."
  },
  {
   "property": "C159",
   "status": "partial",
   "theorems": [
    "Meanas.Props.C159_lipschitz_partial",
    "Meanas.Props.C159_jump_partial"
   ],
   "note": "Proved wherever the basis of generate_kmn is transverse; elsewhere the negation is proved (cause: bloch.py:166-172, see C58)."
  },
  {
   "property": "C160",
   "status": "proved",
   "theorems": [
    "Meanas.Props.C160_residual",
    "Meanas.Props.C160_field",
    "Meanas.Props.C160_attained",
    "Meanas.Props.C160_media",
    "Meanas.Props.C160_solvable",
    "Meanas.Props.C160_frequency",
    "Meanas.Props.C160_solver"
   ],
   "note": "Exact arithmetic. C160_solver is for structures without PEC cells and under reported convergence (C156 shows that generic returns silently otherwise)."
  },
  {
   "property": "C161",
   "status": "proved",
   "theorems": [
    "Meanas.Props.C161_ports",
    "Meanas.Props.C161_reciprocity",
    "Meanas.Props.C161_power",
    "Meanas.Props.C161_scattering",
    "Meanas.Props.C161_coefficients"
   ],
   "note": "The equation is asserted in the inner cells of the row; the two outermost cells couple through the periodic wrap and hold the source or absorber (as in C146). Normal incidence."
  },
  {
   "property": "C162",
   "status": "proved",
   "theorems": [
    "Meanas.Props.C162_decay",
    "Meanas.Props.C162_passes",
    "Meanas.Props.C162_eigsolve",
    "Meanas.Props.C162_returns",
    "Meanas.Props.C162_one_mode",
    "Meanas.Props.three_waves_stop",
    "Meanas.Props.three_waves_two"
   ],
   "note": "Exact arithmetic. The line search is a parameter (`minimize_scalar`); C162_decay, C162_passes and C162_eigsolve need only that it does no worse than theta = 0, C162_one_mode that it is exact. The NaN case is the one of C128."
  },
  {
   "property": "C163",
   "status": "proved",
   "theorems": [
    "Meanas.Props.C163_limit_points",
    "Meanas.Props.C163_limit",
    "Meanas.Props.C163_one_mode",
    "Meanas.Props.C163_preconditioner",
    "Meanas.Props.C163_bloch",
    "Meanas.Props.three_waves_run",
    "Meanas.Props.C163_bloch_case"
   ],
   "note": "Exact arithmetic and exact line search. Which eigenvalue is reached depends on the guess (a guess in an invariant subspace never leaves it), so no theorem says that it is the lowest band. Excluded are wave vectors along y (the basis of C58 divides by zero) and zero (the approximate inverse divides by zero, C60)."
  },
  {
   "property": "C164",
   "status": "proved",
   "theorems": [
    "Meanas.Props.C164_grid",
    "Meanas.Props.C164_bands",
    "Meanas.Props.C164_algebraic",
    "Meanas.Props.C164_case"
   ],
   "note": "Exact arithmetic. Says that every band of the crystal is approximated, with its multiplicity; that the operator has no further (spurious) bands is not part of the claim. modulated_mode is a mode of a modulated crystal in closed form."
  },
  {
   "property": "C165",
   "status": "proved",
   "theorems": [
    "Meanas.Props.C165_limit",
    "Meanas.Props.C165_count",
    "Meanas.Props.C165_gap",
    "Meanas.Props.C165_exact",
    "Meanas.Props.C165_gap_case",
    "Meanas.Props.C165_exact_case"
   ],
   "note": "Exact arithmetic. gridField_hxyz identifies the coefficients with those of the field returned by hmn_2_hxyz. How fine the grid must be is not given explicitly."
  },
  {
   "property": "C166",
   "status": "proved",
   "theorems": [
    "Meanas.Props.C166_index",
    "Meanas.Props.C166_reactive",
    "Meanas.Props.C166_group",
    "Meanas.Props.C166_dispersion",
    "Meanas.Props.C166_bend",
    "Meanas.Props.C166_bend_group",
    "Meanas.Props.C166_case"
   ],
   "note": "Non-dispersive materials; the branch is assumed continuous, as in C97. The fields of the bent mode are those of C140 (waveguide_cyl.exy2e is not right, see C47)."
  },
  {
   "property": "C167",
   "status": "proved",
   "theorems": [
    "Meanas.Props.C167_reduction",
    "Meanas.Props.C167_row",
    "Meanas.Props.C167_interface",
    "Meanas.Props.C167_power",
    "Meanas.Props.C167_total",
    "Meanas.Props.C167_scattering",
    "Meanas.Props.C167_tm",
    "Meanas.Props.C167_case"
   ],
   "note": "C167_reduction: e_full on the grid equals the phase times e_full on the row, other components zero. C167_row: every layered grid has its row for every phase that fits the period. C167_interface: the grid's Fresnel equations as an equivalence. C167_power and C167_total: existence, uniqueness and power balance below and above the critical angle. C167_scattering: passive stacks (with C161). C167_tm: h_full via the dual grid (C147). C167_case: one grid with total and partial reflection."
  },
  {
   "property": "C168",
   "status": "proved",
   "theorems": [
    "Meanas.Props.C168_power",
    "Meanas.Props.C168_passive",
    "Meanas.Props.C168_solvable",
    "Meanas.Props.C168_bound",
    "Meanas.Props.C168_lorentzians",
    "Meanas.Props.C168_sum_rule",
    "Meanas.Props.C168_point_source"
   ],
   "note": "Exact arithmetic. C168_power for complex permittivity; C168_lorentzians and C168_sum_rule for lossless media. C168_point_source shows that the family of fields in the sum rule exists and is unique."
  },
  {
   "property": "C169",
   "status": "proved",
   "theorems": [
    "Meanas.Props.C169_pec_part",
    "Meanas.Props.C169_pmc_part",
    "Meanas.Props.C169_pec",
    "Meanas.Props.C169_pec_driven",
    "Meanas.Props.C169_pec_resonances",
    "Meanas.Props.C169_pec_simulation",
    "Meanas.Props.C169_pmc",
    "Meanas.Props.C169_pmc_driven",
    "Meanas.Props.C169_pmc_resonances",
    "Meanas.Props.C169_pmc_simulation",
    "Meanas.Props.C169_parity",
    "Meanas.Props.C169_case"
   ],
   "note": "Exact arithmetic. Bloch phases are not part of e_full; the whole grid is periodic with an even number of cells along the axis."
  },
  {
   "property": "C170",
   "status": "proved",
   "theorems": [
    "Meanas.Props.C170_trial",
    "Meanas.Props.C170_mode_number",
    "Meanas.Props.C170_multiplicity",
    "Meanas.Props.C170_second",
    "Meanas.Props.C170_solver",
    "Meanas.Props.C170_plane_waves",
    "Meanas.Props.C170_propagating"
   ],
   "note": "Exact arithmetic; C170_solver takes the contract that C46 proves for solve_modes on lossless problems (unit eigenvector of the m-th largest eigenvalue). Multiple modes at the same wavenumber are counted with multiplicity."
  },
  {
   "property": "C171",
   "status": "proved",
   "theorems": [
    "Meanas.Props.C171_transfer",
    "Meanas.Props.C171_repeated",
    "Meanas.Props.C171_bloch",
    "Meanas.Props.C171_lossless",
    "Meanas.Props.C171_gap",
    "Meanas.Props.C171_mirror",
    "Meanas.Props.C171_band",
    "Meanas.Props.C171_windows",
    "Meanas.Props.C171_single"
   ],
   "note": "Exact arithmetic. The fields are those satisfying the e_full equation in all inner cells of the row; that they exist for every incoming wave is C161_scattering."
  },
  {
   "property": "C172",
   "status": "proved",
   "theorems": [
    "Meanas.Props.C172_orthogonal",
    "Meanas.Props.C172_power_orthogonal",
    "Meanas.Props.C172_reciprocity",
    "Meanas.Props.C172_symmetric",
    "Meanas.Props.C172_power",
    "Meanas.Props.C172_unitary",
    "Meanas.Props.C172_mode"
   ],
   "note": "Exact arithmetic. The backward waves are mirror images of the polarity -1 modes, since solve_mode returns the longitudinal E of those with the wrong sign (C51). Degenerate waves have to be made orthogonal first (allowed by the definition of a port). Ports are planes of one axis. C177 shows that every field without sources at such a plane is a sum of the waves, C178 that the waves form a port, C179 that the scattering matrix exists and is unique without trapped fields."
  },
  {
   "property": "C173",
   "status": "proved",
   "theorems": [
    "Meanas.Props.C173_branch",
    "Meanas.Props.C173_real",
    "Meanas.Props.C173_power",
    "Meanas.Props.C173_derivative",
    "Meanas.Props.C173_group",
    "Meanas.Props.C173_bend"
   ],
   "note": "Exact arithmetic. Simple means algebraic multiplicity one; at multiple eigenvalues branches may cross or be only continuous. Removes the assumption of a continuous branch from C97, C122, C140 and C166 for simple modes."
  },
  {
   "property": "C174",
   "status": "proved",
   "theorems": [
    "Meanas.Props.C174_branch",
    "Meanas.Props.C174_lossless"
   ],
   "note": "Exact arithmetic. Removes the assumption of a continuous branch from C135 for nondegenerate resonances. Static fields (omega = 0) are excluded."
  },
  {
   "property": "C175",
   "status": "proved",
   "theorems": [
    "Meanas.Props.C175_branch",
    "Meanas.Props.C175_slopes"
   ],
   "note": "Exact arithmetic. Removes the assumption of a continuous branch from C113 and C136 for nondegenerate bands. Where a plane wave has kx = 0 the vector m of generate_kmn jumps (C58, C113), so the coefficients cannot be continuous there."
  },
  {
   "property": "C176",
   "status": "proved",
   "theorems": [
    "Meanas.Props.C176_array",
    "Meanas.Props.C176_mirror",
    "Meanas.Props.C176_exchange",
    "Meanas.Props.C176_dual"
   ],
   "note": "Exact arithmetic, padded_size equal to the size of the field (with padding the halves are swapped, C81). The phase of a mirror image comes from the cell taken as origin, index (n+1)//2: half a cell from the centre for even n, one cell for odd n (fftshift in place of ifftshift)."
  },
  {
   "property": "C177",
   "status": "proved",
   "theorems": [
    "Meanas.Props.C177_complete",
    "Meanas.Props.C177_port",
    "Meanas.Props.C177_distinct"
   ],
   "note": "The converse of C51: not only are the expanded modes solutions, all solutions are sums of them. The waves are written out (profile from exy2e, half-cell factor from the corrected wavenumber) because solve_mode itself normalises to unit power and cannot return evanescent modes. The excluded values are real exceptions: at cutoff the two directions coincide and a purely axial field can appear."
  },
  {
   "property": "C178",
   "status": "proved",
   "theorems": [
    "Meanas.Props.C178_nondegenerate",
    "Meanas.Props.C178_port",
    "Meanas.Props.C178_amplitudes",
    "Meanas.Props.C178_orthogonal"
   ],
   "note": "Exact arithmetic. The integral has both terms, as the docstring of waveguide_3d.compute_overlap_e announces it (E x H_mode + E_mode x H, with the sign that belongs to the reversed mode); that function itself returns a multiple of the mode field on two planes instead. The waves are those of C177 (profile from exy2e, half-cell factor from the corrected wavenumber)."
  },
  {
   "property": "C179",
   "status": "proved",
   "theorems": [
    "Meanas.Props.C179_iff",
    "Meanas.Props.C179_matrix",
    "Meanas.Props.C179_straight",
    "Meanas.Props.C179_balance",
    "Meanas.Props.C179_power",
    "Meanas.Props.C179_absorbing"
   ],
   "note": "Exact arithmetic. The modes at the ports are those of C177 (profile from exy2e, half-cell factor from the corrected wavenumber); which direction counts as incoming is free. Absorbing everywhere means Im(epsilon) < 0 from two planes after the first port to two planes before the second, at least two planes; lossless devices can trap fields, for which no scattering matrix exists. That outgoing waves carry no power inwards is an assumption there (it can fail: backward waves); it is checked for guides one cell wide."
  },
  {
   "property": "C180",
   "status": "proved",
   "theorems": [
    "Meanas.Props.C180_cascade",
    "Meanas.Props.C180_ports_moved",
    "Meanas.Props.C180_straight"
   ],
   "note": "Exact arithmetic. All modes at the joint are kept, evanescent ones included; with fewer modes the rule is an approximation. The matrix refers waves to a common origin along the axis, so that moving a port multiplies no entry by a phase."
  },
  {
   "property": "C181",
   "status": "proved",
   "theorems": [
    "Meanas.Props.C181_reciprocal",
    "Meanas.Props.C181_mode_power",
    "Meanas.Props.C181_unitary",
    "Meanas.Props.C181_orthogonal"
   ],
   "note": "Exact arithmetic. The weights and powers are sums of e_cross_h over the plane of the port. The power of a travelling mode may point against its phase (backward waves): N then has both signs and the matrix conserves the signed power. Modes with one wavenumber are assumed orthogonal in the sense of reciprocity or of power; C178_orthogonal and C181_orthogonal show that they can always be chosen so."
  },
  {
   "property": "C182",
   "status": "proved",
   "theorems": [
    "Meanas.Props.C182_e_full",
    "Meanas.Props.C182_h_full",
    "Meanas.Props.C182_sharp",
    "Meanas.Props.C182_count",
    "Meanas.Props.C182_first_order",
    "Meanas.Props.C182_modes"
   ],
   "note": "Counts entries that differ from zero. scipy may store explicit zeros (products with PEC and PMC masks, cancelled sums) at positions of the same stencil."
  },
  {
   "property": "C183",
   "status": "proved",
   "theorems": [
    "Meanas.Props.C183_flux",
    "Meanas.Props.C183_work",
    "Meanas.Props.C183_spectrum",
    "Meanas.Props.C183_run",
    "Meanas.Props.C183_cpml"
   ],
   "note": "Real arithmetic. poynting_e_cross_h is called with the conjugate of H as its second argument, as the time averages in meanas do. C120_damped supplies the damping that C183_cpml asks for (example in the file)."
  },
  {
   "property": "C184",
   "status": "partial",
   "theorems": [
    "Meanas.Props.C184_curl",
    "Meanas.Props.C184_update",
    "Meanas.Props.C184_media",
    "Meanas.Props.C184_three_numbers_partial",
    "Meanas.Props.C184_poynting",
    "Meanas.Props.C184_energy_partial",
    "Meanas.Props.C184_dxmul_partial",
    "Meanas.Props.C184_dxmul_default",
    "Meanas.Props.C184_dxmul_grows_partial",
    "Meanas.Props.C184_sparse_partial"
   ],
   "note": "Proved in full for the curls, updates and poynting. False of the rest: the matrix curl compares only numbers of cells (lists in the wrong order pass, one width for all does not); delta_energy_j and dxmul (the stored energies) on a flat grid accept any number of widths across it or cells of a medium across it and return that many cells; a medium [ex, ey, ez] of shape (3,) passes on grids with three cells along z and means three layers. numpy's broadcasting rules are part of the trusted reading."
  },
  {
   "property": "C185",
   "status": "partial",
   "theorems": [
    "Meanas.Props.C185_joined_iff",
    "Meanas.Props.C185_exact",
    "Meanas.Props.C185_transfer",
    "Meanas.Props.C185_inverse",
    "Meanas.Props.C185_scaled",
    "Meanas.Props.C185_any_scale_partial",
    "Meanas.Props.C185_abcd_any_scale_partial",
    "Meanas.Props.C185_modes",
    "Meanas.Props.C185_metal_partial",
    "Meanas.Props.C185_metal_hypotheses"
   ],
   "note": "get_tr returns the exact amplitudes if and only if the exact transmission matrix does not increase the sum of squared amplitudes. This is false in general once decaying modes are kept: at a lossless metal that reflects everything, get_tr inverts the singular value 8/5 and reflects 15 % of the power; scaling the modes of the metal by two makes it exact (C185_scaled: get_tr is always exact if the right modes are scaled up far enough, but at the metal no scale makes it exact in both directions and get_abcd is wrong for every scale). get_abcd is exact if and only if the exact transmission shows no gain in either direction (C185_transfer; get_abcd taken at the meaning of its blocks, as in C56). C185_modes shows that the hypotheses hold for all modes of a cross-section with equal real widths and different wavenumbers."
  }
 ]
}