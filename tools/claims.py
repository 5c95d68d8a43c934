C['C01'] = ('proved', ['C01_deriv_forward', 'C01_deriv_back', 'C01_curl_forward', 'C01_curl_back', 'C01_curl_forward_x'],
  'Flat (C-order) sparse operators vs. functional operators, any shape (length-1 axes included), any widths.')
C['C02'] = ('proved', ['C02_unvec_vec', 'C02_vec_unvec', 'C02_unvec_error_iff', 'C02_position_3d', 'C02_position_2d'], '')
C['C03'] = ('proved', ['C03_shift_circ', 'C03_shift_circ_group', 'C03_shift_circ_error_iff'], '')
C['C04'] = ('proved', ['C04_shift_with_mirror', 'C04_shift_with_mirror_ok_iff'],
  'Distances below -n pass the explicit check and are rejected by ravel_multi_index.')
C['C05'] = ('proved', ['C05_div_curl_back', 'C05_div_curl_forward', 'C05_curl_grad_forward', 'C05_curl_grad_back'], '')
C['C06'] = ('proved', ['C06_deriv_adjoint', 'C06_curl_adjoint', 'C06_deriv_adjoint_weighted', 'C06_curl_adjoint_weighted'], '')
C['C07'] = ('proved', ['C07_curl_forward_parts', 'C07_curl_back_parts', 'C07_parts_single_axis'], '')
C['C08'] = ('proved', ['C08_avg', 'C08_avg_preserves', 'C08_vec_cross', 'C08_vec_cross_antisymm'], '')
C['C01'][1].extend(['C01_deriv_values', 'C01_curl_values', 'C01_deriv_2d'])
C['C09'] = ('proved', ['C09_gauss_electric', 'C09_gauss_magnetic'], 'Scripts: any interleaving of E updates, H updates, J and M injections.')
C['C10'] = ('partial', ['C10_poynting_h2e_partial', 'C10_poynting_e2h_partial', 'C10_delta_energy', 'C10_poynting_h2e_yee', 'C10_poynting_e2h_yee', 'C10_source_work', 'C10_excess_h2e_partial', 'C10_excess_e2h_partial', 'C10_unequal_lattices_partial'],
  'True for grids with dx_e == dx_h; false otherwise (witness C10_unequal_lattices_partial): dxmul weights every E component with dx_e*dy_e*dz_e instead of its Yee volume. With Yee volumes the identity holds on all grids (…_yee); C10_excess_… gives the exact error of the code on all grids.')
C['C11'] = ('proved', ['C11_total_energy', 'C11_source_free'], '')
C['C12'] = ('proved', ['C12_stability'], 'Non-uniform grids with different E and H widths and inhomogeneous media included.')
C['C13'] = ('proved', ['C13_reversible', 'C13_reversible_script'], '')
C['C14'] = ('proved', ['C14_superposition'], '')
C['C15'] = ('proved', ['C15_light_cone', 'C15_light_cone_leapfrog'], '')
C['C16'] = ('proved', ['C16_translation'], '')
C['C17'] = ('proved', ['C17_arguments', 'C17_sum_zero', 'C17_sum_zero_eh'], '')
C['C18'] = ('partial', ['C18_accepts', 'C18_low_side_partial', 'C18_high_side_partial', 'C18_too_short_partial', 'C18_idempotent_partial', 'C18_raises_on_numpy2_partial'],
  'The index lists used for the high side raise on numpy >= 2 (required by pyproject); the intended behaviour is proved for tuple indices.')
C['C19'] = ('proved', ['C19_accepts', 'C19_bounds', 'C19_monotone', 'C19_mirror', 'C19_placement'], '')
C['C20'] = ('partial', ['C20_update_e', 'C20_update_h_partial', 'C20_update_h_actual', 'C20_update_h_wrong_lattice_partial'],
  'E part holds on every grid. H part holds iff the lattices agree: pml.py builds the forward derivatives from dxes[1].')
C['C21'] = ('proved', ['C21_recursion_e', 'C21_recursion_h', 'C21_convolution_e', 'C21_convolution_h', 'C21_update_e', 'C21_update_h', 'C21_outside', 'C21_interior', 'C21_disjoint_layers'],
  'Layers on the same axis must not overlap (C21_disjoint_layers: true whenever the two thicknesses fit into the axis).')
C['C22'] = ('partial', ['C22_delay', 'C22_phase', 'C22_turn_on', 'C22_envelope', 'C22_one_sided_partial', 'C22_one_sided_drop_partial', 'C22_ricker', 'C22_ricker_second_derivative'],
  'Everything holds except the one_sided clause for wide-band pulses: the envelope peak (2 alpha/pi)^(1/4) may exceed the value 1 it is then set to.')
C['C23'] = ('partial', ['C23_finite_iff_partial', 'C23_normalised_partial', 'C23_nan_partial'],
  'False on grids containing the waist plane: 0*(1+inf) is NaN, and a NaN in the middle row makes every value NaN.')
C['C67'] = ('partial', ['C67_ricker_turn_on_partial', 'C67_default_turn_on'],
  'The claim is false for every root the solver may return; negation proved.')

C['C24'] = ('partial', ['C24_e_full_no_mu_partial', 'C24_e_full_mu_actual_partial', 'C24_e_full_mu_wrong_partial', 'C24_eh_full_partial', 'C24_eh_full_no_mu_raises_partial', 'C24_e2h', 'C24_m2j_sign_partial', 'C24_m2j_wrong_partial', 'C24_tfsf_no_mu_partial', 'C31_e_cross', 'C31_h_cross'],
  'Holds for e_full without mu, eh_full with mu, e2h. False for functional.e_full with mu (multiplies by mu, witness), m2j (opposite sign, witness), operators.eh_full with mu=None (raises).')
C['C25'] = ('proved', ['C25_symmetric', 'C25_inverse'], '')
C['C26'] = ('proved', ['C26_first_second_order', 'C26_no_magnetic_source', 'C26_functional_no_mu'], '')
C['C27'] = ('proved', ['C27_e_to_h', 'C27_h_to_e'], '')
C['C28'] = ('proved', ['C28_pec_zero', 'C28_pec_independent', 'C28_pec_elsewhere', 'C28_pmc_e_full', 'C28_pmc_e2h', 'C28_pmc_zero', 'C28_h_full_value', 'C28_h_full_pec', 'C28_empty_masks', 'C28_eh_full'], '')
C['C29'] = ('proved', ['C29_launches', 'C29_local'], '')
C['C30'] = ('partial', ['C30_rows_partial', 'C30_complete_partial', 'C30_slab_partial', 'C30_corner_missing_partial'],
  'The source keeps the currents of face neighbours only; complete for masks whose boundary has no concave edge (slabs), currents at cells diagonal to a mask edge are missing (witness).')
C['C31'] = ('proved', ['C31_e_cross', 'C31_h_cross', 'C31_energy_balance', 'C31_total_power'], '')
C['C32'] = ('partial', ['C32_solves_partial', 'C32_adjoint_partial', 'C32_adjoint_raises_partial', 'C32_guess_partial'],
  'The adjoint branch uses the attribute .H, which scipy >= 1.14 sparse arrays do not have: it raises. The rest is proved with an exact solver as oracle.')
C['C33'] = ('partial', ['C33_no_guess_partial', 'C33_no_guess_sequence_partial', 'C33_stale_guess_partial', 'C33_interference_partial', 'C33_callback_recursion_partial', 'C33_no_callback_partial'],
  'False: an E_guess is written into the caller\'s option dictionary and used by later calls; a user callback makes the logging callback call itself for ever.')
C['C34'] = ('proved', ['C34_charge', 'C34_no_charge'], '')
C['C35'] = ('proved', ['C35_harmonic', 'C35_driven', 'C35_documented_signs'], 'Sign convention: the FDFD operators match exp(+i omega t); C35_documented_signs states what the documented exp(-i omega t) gives.')
C['C36'] = ('proved', ['C36_dispersion', 'C36_fdtd'], '')
C['C37'] = ('partial', ['C37_real_part', 'C37_zero_thickness', 'C37_outside', 'C37_default_outside', 'C37_mirror_b', 'C37_mirror_a_partial', 'C37_mirror_a_wrong_partial', 'C37_default_sign', 'C37_default_growth'],
  'All clauses proved except mirror symmetry of the first list: it is sampled at i instead of i+1/2, so entry i mirrors entry n-i and the list is not its own reversal (witness).')
C['C38'] = ('partial', ['C38_layer_only', 'C38_commute', 'C38_raises', 'C38_zero_front_partial', 'C38_zero_back_partial'],
  'Thickness 0 at the back turns every width of the axis into NaN.')
C['C68'] = ('partial', ['C68_relation_partial', 'C68_whole_partial', 'C68_differ_partial'],
  'False: the half-cell offsets of the two lists are exchanged and the profile is not divided by the thickness in uniform_grid_scpml. Exact relation proved for the front layer alone and for both layers one after the other (whole axis); witness of the difference.')

C['C39'] = ('proved', ['C39_operator_e_modes', 'C39_is_mode', 'C39_e2h_h2e', 'C39_errors_zero', 'C39_errors_decide'], '')
C['C40'] = ('proved', ['C40_operator_h_modes', 'C40_is_mode'], '')
C['C41'] = ('proved', ['C41_mode_gives_eigenvectors', 'C41_same_spectrum'], '')
C['C42'] = ('proved', ['C42_unit_power', 'C42_rejects', 'C42_scale_invariant', 'C42_phase_invariant', 'C42_normalized_fields_e', 'C42_normalized_fields_h'],
  'Also invariant under a complex factor when some entry has positive energy.')
C['C43'] = ('partial', ['C43_inner_product_value', 'C43_sesquilinear', 'C43_trapezoid_raises_partial', 'C43_trapezoid_square_partial', 'C43_trapezoid_wrong_partial', 'C43_trapezoid_two_partial'],
  'Holds for the default branch. trapezoid=True raises a shape error on every cross-section with nx != ny (none equal to 2), because Sz_b integrates along y with the x positions; with two cells along y nothing is raised but the second term is weighted with the whole extent of the grid.')
C['C44'] = ('proved', ['C44_orthogonal'], 'With the Yee areas dx_e*dy_h, dx_h*dy_e; see C69 for the weights of inner_product.')
C['C45'] = ('partial', ['C45_sensitivity_uniform', 'C45_sensitivity_fails_nonuniform_partial', 'C45_sensitivity_fails_lossy_partial'],
  'Proved for lossless waveguides on uniform grids, along every curve of media. False on non-uniform grids, and in lossy media because H is conjugated (two witnesses with explicit curves of modes).')
C['C69'] = ('partial', ['C69_inner_product_orthogonal', 'C69_exchanged_widths_partial', 'C69_inner_product_orthogonality_fails_partial'],
  'Holds when the E and H widths agree, and on every real grid if the two lists of widths are passed exchanged. False otherwise: the weights are those of the other component (witness: two modes of a homogeneous cross-section).')

C['C46'] = ('partial', ['C46_lossless_partial', 'C46_propagating_partial', 'C46_evanescent_partial', 'C46_order_partial', 'C46_empty_partial', 'C46_no_margin_partial'],
  'Proved for lossless problems with an eigensolver meeting its contract: the requested eigenvectors are returned. False: evanescent modes get the wavenumber 0 instead of a square root of the eigenvalue, and the modes come sorted by wavenumber, not in the order requested.')
C['C65'] = ('partial', ['C65_power_iteration', 'C65_power_unit', 'C65_power_eigenvector', 'C65_rayleigh_partial', 'C65_rayleigh_eigenvector', 'C65_rayleigh_zero_partial', 'C65_stale_eigenvalue_partial'],
  'Everything holds for power_iteration. rayleigh_quotient_iteration returns the Rayleigh quotient of the previous vector when the iterations run out (witness), and raises for iterations=0.')
C['C66'] = ('proved', ['C66_signed', 'C66_rough_estimate', 'C66_too_small'], 'scipy eigs enters as an oracle with the contract IsEigs; sizes n >= 2k+50 as scipy requires.')
C['C70'] = ('partial', ['C70_positional_raises_partial', 'C70_any_keywords_partial', 'C70_bent_any_keywords_partial', 'C70_keyword_partial', 'C70_keyword_defaults_partial', 'C70_lossless_partial', 'C70_bent_positional_raises_partial', 'C70_bent_keyword_partial', 'C70_bent_keyword_defaults_partial', 'C70_bent_lossless_partial'],
  'False for positional arguments: mode_numbers is then passed twice and a TypeError is raised. Holds for keyword arguments.')
C['C71'] = ('proved', ['C71_power_converges'], '')

C['C47'] = ('partial', ['C47_operator_modes_partial', 'C47_mode_gives_eigenvector_partial', 'C47_exy2e_error_partial', 'C47_exy2e_wrong_partial'],
  'cylindrical_operator is right: with the longitudinal field of the divergence condition its eigenvectors are the modes of the bend, and conversely. exy2e is wrong: one radius factor is Tb instead of Ta (exact error term proved; witness where no H field makes the result a mode). e2h and exy2h return -H, which only normalized_fields_e undoes.')
C['C48'] = ('proved', ['C48_unit_factors', 'C48_scale_factors', 'C48_limit'], '')
C['C49'] = ('proved', ['C49_mode_radius', 'C49_linear_wavenumber'], '')
C['C72'] = ('partial', ['C72_uniform_partial', 'C72_steps_partial', 'C72_nonuniform_partial'],
  'Holds on grids uniform along x. False wherever two neighbouring widths differ: ra steps by the width of the next cell.')
C['C73'] = ('proved', ['C73_unit_power'], '')
C['C74'] = ('partial', ['C74_lossless_partial', 'C74_no_margin_partial', 'C74_propagating_partial', 'C74_evanescent_partial'],
  'As C46: proved for propagating modes; evanescent modes get the angular wavenumber 0 and the output is sorted.')

C['C50'] = ('proved', ['C50_reduction', 'C50_expansion', 'C50_wavenumber', 'C50_solve_mode'],
  'The pair found by the 2D solver is a parameter of the model of solve_mode.')
C['C51'] = ('partial', ['C51_forward_partial', 'C51_backward_fails_partial', 'C51_backward_witness_partial'],
  'Proved for polarity +1. False for polarity -1 whenever the mode has a longitudinal E component: solve_mode flips all of H and keeps E_z (concrete witness).')
C['C52'] = ('partial', ['C52_slice_and_window', 'C52_step', 'C52_uniform_partial', 'C52_off_by_one_partial'],
  'Proved for uniform spacing along the axis. False on non-uniform grids: the distance between planes i and i+1 is taken to be dx_e[i+1] (witness).')
C['C53'] = ('partial', ['C53_normalised_partial', 'C53_defined_partial', 'C53_nan_at_start_partial'],
  'Proved when the slice starts at index 2 or later. For polarity +1 and a slice starting below 2 the window is empty and the whole result is NaN.')
C['C54'] = ('proved', ['C54_layers', 'C54_unidirectional'], '')

C['C55'] = ('proved', ['C55_passive', 'C55_mode_matching', 'C55_identical', 'C55_square'],
  'numpy.linalg enters through the contract LibOk, which is proved satisfiable (libOk_exists). get_tr only returns for equally many modes on both sides.')
C['C56'] = ('partial', ['C56_abcd_partial', 'C56_same_iff_partial', 'C56_fails_partial', 'C56_normalised_partial', 'C56_single_mode_partial'],
  'The matrix that get_abcd assembles is right (the call itself raises, see C154). get_s has the two transmission blocks exchanged: the two agree if and only if t12 = t21 (witness: a rotation of the mode basis). For normalised modes t21 is the transpose of t12 (C114), so they agree exactly if t12 is symmetric, and always with a single mode.')
C['C57'] = ('partial', ['C57_reciprocal', 'C57_reciprocal_nearest', 'C57_diagonal_partial', 'C57_gain_partial'],
  'force_reciprocal and the diagonal S S^H of force_nogain (without force_reciprocal) hold. No-gain is false: the singular values are kept (witness: every input power is doubled).')

C['C58'] = ('partial', ['C58_frame_partial', 'C58_fails_partial', 'C58_cubic_partial'],
  'Proved for wave vectors with kx != 0 or ky = 0. False for all others: the mask looks at kx alone, so m is not orthogonal to k, and n is NaN when k is along y (happens on every grid with two cells along y for Bloch vectors along z or zero).')
C['C59'] = ('partial', ['C59_hermitian_partial', 'C59_matrix_partial', 'C59_nan_partial', 'C59_nan_cubic_partial'],
  'Proved whenever no wave vector of the grid is along y; otherwise the operator returns NaN.')
C['C60'] = ('partial', ['C60_uniform_partial', 'C59_nan_partial'], 'Proved whenever no wave vector is along y or zero; NaN if one is along y.')
C['C61'] = ('partial', ['C61_transverse_partial', 'C61_fails_partial', 'C59_nan_partial'],
  'Proved if no wave vector has kx = 0, ky != 0; otherwise there are coefficients whose H, and others whose D, has a divergence.')
C['C62'] = ('partial', ['C62_value_partial', 'C62_polarised_partial', 'C62_modifies_partial', 'C62_fails_partial'],
  'False: a minus sign replaces a product in both cross products, and the arrays are scaled in place. The exact error term is proved; right for fields with Ey and Hz only.')
C['C75'] = ('partial', ['C75_curl_curl_partial'], 'Proved if no wave vector of the grid has kx = 0, ky != 0 (see C58).')
C['C76'] = ('partial', ['C76_raises_partial', 'C76_never_returns_partial', 'C76_returns', 'C76_wrong_partial'], 'False: an AssertionError is raised for every field polarised along y, since inner_product scales the arrays anew in each of the four calls. Where numbers are returned they satisfy 4t = (r^2-1) pn, r pn = -pp; a field against its own copy can give a transmission of magnitude other than 1.')
C['C77'] = ('proved', ['C77_line_search', 'C77_descent', 'C77_run_descent', 'C77_singular_angle'], 'The line search result enters through the hypothesis that it is no worse than angle 0.')
C['C78'] = ('partial', ['C78_ritz_partial', 'C78_frequencies_partial', 'C78_stale_partial'],
  'Proved when the loop stops by its convergence test; the library contract is proved satisfiable (solveLibOk_exists). False when the iterations run out: the Gram matrix used in the recovery belongs to the previous block (witness).')
C['C79'] = ('partial', ['C79_find_k_partial'], 'False: find_k always raises a TypeError, since it converts a vector to a float.')

C['C63'] = ('proved', ['C63_light_cone', 'C63_total'], 'Includes that no entry is NaN and that theta, phi are the angles of the wave vector. A single sample along x raises an IndexError.')
C['C64'] = ('partial', ['C64_roundtrip_partial', 'C64_nonsquare_partial', 'C64_empty', 'C64_padding', 'C64_nan_partial', 'C64_nan_fine_partial', 'C64_finite_partial', 'C64_dky_partial', 'C64_chain_partial', 'C64_array_step_partial'],
  'Proved for square grids inside the light cone with the right spacings given. False otherwise: other grids raise, one sample strictly beyond the light cone makes the whole near field NaN (every even grid with cells up to half a wavelength has such samples; without them the near field is finite), and the returned dky is zero.')
C['C80'] = ('proved', ['C80_outgoing', 'C80_incoming'], 'For a spectrum at the sample computed from the cell positions, not from the FFT.')
C['C81'] = ('partial', ['C81_radiation_partial', 'C81_padded_partial', 'C81_fails_partial'],
  'Proved without padding. False with padding: zeros are appended after the halves were swapped, so the result is that of a near field with swapped halves (exact statement proved, with a witness for the default padded size).')

C['C82'] = ('proved', ['C82_reciprocity', 'C82_solver', 'C82_magnetic'], '')
C['C83'] = ('proved', ['C83_absorbed_power', 'C83_unique', 'C83_exists_unique', 'C83_solver', 'C83_bound'], 'generic enters with a matrix solver that is exact whenever a solution exists (as in C32).')
C['C84'] = ('proved', ['C84_e_full', 'C84_h_full', 'C84_maps', 'C84_solution', 'C84_fdtd'], '')
C['C85'] = ('proved', ['C85_deriv_zero', 'C85_width_irrelevant', 'C85_width_irrelevant_fdtd', 'C85_scalar', 'C85_decoupled'], '')
C['C86'] = ('proved', ['C86_e_full', 'C86_e2h'], 'The FDTD counterpart is C16.')
C['C87'] = ('proved', ['C87_samples', 'C87_paraxial_equation', 'C87_radius'], 'Where the code returns NaN is the subject of C23.')
C['C88'] = ('proved', ['C88_attenuation'], '')
C['C89'] = ('partial', ['C89_mu_raises_partial', 'C89_inverse_mu_wrong_partial', 'C89_inverse_mu_mixing_partial'], 'False of the code: maxwell_operator raises whenever mu is given, and inverse_maxwell_operator_approx with mu returns wrong values on cubic grids (zero on a single cell).')
C['C90'] = ('proved', ['C90_e_full', 'C90_e2h', 'C90_fdtd'], '')
C['C91'] = ('proved', ['C91_e_full', 'C91_e2h', 'C91_fdtd', 'C91_symmetric_run'], '')
C['C92'] = ('proved', ['C92_unstable', 'C92_marginal', 'C92_sharp'], '')
C['C93'] = ('proved', ['C93_power'], '')
C['C94'] = ('proved', ['C94_end_to_end'], 'ARPACK enters through its contract (it returns the requested largest eigenpairs); real spectrum and the bound on the estimate are hypotheses.')
C['C95'] = ('partial', ['C95_scpml_effect', 'C95_scpml_overwrites_partial', 'C95_power_keeps_arguments', 'C95_rqi_effect', 'C95_guess_overwritten_partial', 'C95_rqi_poisoned_guess_partial', 'C95_bloch_effect', 'C95_bloch_replaced_guess', 'C95_bloch_guess_overwritten_partial'], 'False of the code for stretch_with_scpml, rayleigh_quotient_iteration and eigsolve, and for power_iteration without iterations. The exact effects are proved.')
C['C96'] = ('proved', ['C96_attenuation', 'C96_equipartition', 'C96_lossless', 'C96_passive', 'C96_normalized_fields'], '')
C['C97'] = ('proved', ['C97_group_velocity', 'C97_normalized_fields'], '')
C['C98'] = ('proved', ['C98_index_bound'], '')
C['C99'] = ('proved', ['C99_independent_guess', 'C99_redraw', 'C99_deterministic', 'C99_too_many_modes'], 'scipy.linalg.sqrtm enters with its contract. Exact arithmetic: a guess is dependent iff its Gram matrix is singular.')
C['C100'] = ('proved', ['C100_cell', 'C100_surface', 'C100_magnetic_current', 'C100_average_power', 'C100_same_power'], '')
C['C101'] = ('proved', ['C101_steady_state', 'C101_regular', 'C101_absorbs', 'C101_factor'], '')
C['C102'] = ('proved', ['C102_reversed_fields', 'C102_backward_mode', 'C102_wrong_direction', 'C102_time_reversal', 'C102_real_fields'], '')
C['C103'] = ('proved', ['C103_exact', 'C103_gradient_conductors', 'C103_gradient', 'C103_solver'], '')
C['C104'] = ('proved', ['C104_deriv_forward', 'C104_deriv_back', 'C104_curl_forward', 'C104_curl_back', 'C104_step'], '')
C['C105'] = ('proved', ['C105_perturbed_run', 'C105_convergence', 'C105_second_order'], '')
C['C106'] = ('proved', ['C106_bound', 'C106_error', 'C106_second_order'], '')
C['C107'] = ('proved', ['C107_divergence', 'C107_region_yee', 'C107_region', 'C107_two_surfaces'], '')
C['C108'] = ('proved', ['C108_conjugate', 'C108_conjugate_h', 'C108_negative_frequency', 'C108_scpml', 'C108_time_reversal', 'C108_quadrature'], '')
C['C109'] = ('partial', ['C109_operator_partial', 'C109_fields_partial', 'C109_bands_partial', 'C109_even_partial'], 'Proved on grids with an odd number of cells along every axis. False with an even number: the grid contains the plane wave -N/2 but not N/2 (C109_even_partial: in vacuum, a band at k that is none at -k).')
C['C110'] = ('proved', ['C110_operator', 'C110_fields', 'C110_bands', 'C110_eps', 'C110_lattice'], '')
C['C111'] = ('proved', ['C111_monotone', 'C111_stable'], 'The restriction to Bloch vectors without a wave vector along y is part of the quantifier: otherwise the operator is NaN (C59).')
C['C112'] = ('proved', ['C112_upper_bound', 'C112_residual', 'C112_maxwell'], 'Runs that exhaust max_iters are excluded by the statement; their values are wrong (C78_stale_partial).')
C['C113'] = ('partial', ['C113_two_modes_partial', 'C113_slope_partial', 'C113_group_velocity_partial', 'C113_fails_partial'], 'Proved wherever no wave vector of the grid has kx = 0, ky != 0 (where `generate_kmn` returns a frame that is not orthogonal to k, see C58); the differentiability of the band is a conclusion, only continuity of H is assumed. C113_fails_partial: on every nonempty grid the claim is false along a line of Bloch vectors with such wave vectors.')
C['C114'] = ('proved', ['C114_reciprocal', 'C114_matching', 'C114_lossless'], 'The uniqueness of U f(s) V over all singular value decompositions and the transposition of least-squares solutions are proved (Props/EmeReciprocity.lean); invertibility of the overlap matrix is not assumed. Example: Fresnel coefficients 4/5 and -3/5 of an index step 1 to 4.')
C['C115'] = ('proved', ['C115_finite', 'C115_at_rest', 'C115_no_resonance', 'C115_pulse'], 'The signs are those the FDFD operators use (time dependence e^{+iwt}, see C35). The limit statement is for real (lossless) epsilon and mu; the finite statement is for complex ones too. Without PEC/PMC masks.')
C['C116'] = ('proved', ['C116_reciprocity', 'C116_exchange', 'C116_mixed'], 'Grids given by dxes. Scripts without CPML and without the conducting-boundary updaters.')
C['C117'] = ('proved', ['C117_phase_velocity', 'C117_frequency', 'C117_magic', 'C117_fdfd', 'C117_pulse', 'C117_revival'], 'Frequencies above pi/dt are aliases and excluded. The dispersion relation itself is C36.')
C['C118'] = ('proved', ['C118_monotone', 'C118_eigenvalue', 'C118_cubic', 'C118_not_hermitian'], 'Exact arithmetic, exact inner solver; calls that return NaN or raise return no pair. C118_not_hermitian shows that the hypothesis is needed: a 2x2 operator that is not Hermitian on which one exact step doubles the residual. The waveguide operators are not Hermitian in general, for them only C65 applies.')
C['C119'] = ('partial', ['C119_unitary_partial', 'C119_power_partial', 'C119_get_s_partial', 'C119_gain_partial'], 'True of the four matrices that get_tr returns (C119_unitary_partial, C119_power_partial). get_s places the transmission blocks at exchanged positions (C56): its matrix is symmetric, and unitary if the transmission matrix is symmetric (C119_get_s_partial), but for a lossless birefringent step with the modes listed in different order on the two sides it amplifies incident light by 36 % (C119_gain_partial).')
C['C120'] = ('proved', ['C120_transform', 'C120_params', 'C120_damped', 'C120_solution'], 'The grid is that of C101: cells of the layers are multiplied by the stretch factor of the CPML recursion. Convergence at real frequencies is a hypothesis of C120_transform; C120_damped proves it for all bounded currents at sufficiently damped frequencies.')
C['C121'] = ('proved', ['C121_trial', 'C121_monotone', 'C121_harmonic_mean', 'C121_fundamental'], 'Periodic boundaries of the cross-section, as in the code. C121_fundamental uses the upper bound of C98.')
C['C122'] = ('proved', ['C122_group_index', 'C122_dispersion'], 'The branch is assumed continuous, as in C97; modes without net power are excluded (cut-off).')
C['C123'] = ('proved', ['C123_translate', 'C123_mirror', 'C123_exchange', 'C123_scale', 'C123_parity'], '')
C['C124'] = ('proved', ['C124_finite', 'C124_solvable', 'C124_only_if', 'C124_solver', 'C124_rayleigh', 'C124_real', 'C124_orthogonal', 'C124_complete', 'C124_total', 'C124_monotone'], 'Resonances are the frequencies with a source-free solution of the modelled e_full; multiplicity is the dimension of the span of the resonant fields. The sparse solver is a parameter, assumed to solve every solvable system.')
C['C125'] = ('proved', ['C125_highest', 'C125_ringing', 'C125_spectrum', 'C125_peak'], 'For runs with given cell widths, no conductors and no sources. The example is a field of a cube of eight cells that is resonant at a positive frequency.')
C['C126'] = ('partial', ['C126_image_partial'], 'As in C18, numpy >= 2 rejects the list indices, so the updaters raise; the principle is proved for the meaning of the indices as tuples. The mirrors are magnetic conductors: tangential H and normal E vanish on them.')
C['C127'] = ('partial', ['C127_projection_partial', 'C127_backward_partial', 'C127_other_mode_partial'], 'False of the code: it projects on the electric field without weights and without the magnetic field. The exact value is proved for uniform spacing along the axis and real wavenumbers; the counter-propagating copy is counted with weight at least |cos(k d)| (T - L)/(T + L); on a non-uniform grid two orthogonal modes of vacuum have a nonzero overlap. Missing: nothing more holds.')
C['C128'] = ('partial', ['C128_direction', 'C128_stationary', 'C128_progress', 'C128_bloch_partial', 'C128_exact_guess_partial', 'C128_conjugate', 'C128_progress_between', 'C128_run', 'C128_bloch_run_partial', 'C128_defined', 'C128_one_mode'], 'False of the code for exact guesses: the first pass divides by the norm of a zero direction and everything becomes NaN. The direction, the stationary points, conjugacy and strict progress of every pass of a run are proved in general; for the Maxwell operator on the grids where it is defined. That passes do not raise is proved for one mode; with more, trial blocks can lose rank (C77_singular_angle).')
C['C129'] = ('proved', ['C129_residual', 'C129_samples', 'C129_second_order', 'C129_rings', 'C129_fdtd'], "Smooth means three derivatives along each axis, the third bounded. The resonances found are those near a resonance of Maxwell's equations; that the grid has no others near is not claimed. The example is the standing wave of a box in vacuum.")
C['C130'] = ('proved', ['C130_differences', 'C130_consistent', 'C130_residual', 'C130_second_order'], 'Convergence is stated at fixed wavenumber (the frequency at which the grid has exactly this wavenumber), where the problem is a definite eigenvalue problem; the cross-section is periodic as the operators are. That the grid has no other modes near is not claimed. The example is a wave crossing a homogeneous medium at an angle.')
C['C131'] = ('proved', ['C131_box', 'C131_waveguide', 'C131_bloch'], 'The periodic grid is the one the operators use.')
C['C132'] = ('partial', ['C132_documented_widths_partial', 'C132_refinement_partial', 'C132_no_positions_partial', 'C132_consistent_widths'], "False wherever a cell and the next one differ: the derivative of the coordinate comes out as dx'/dx and dx/dx', refinement keeps the factor, and no positions fit the two lists. Proved right: the exchanged lists [dx', dx] at the documented positions, or [dx, (dx[m-1] + dx[m]) / 2] with E at the left ends of the cells, which is the grid of C133.")
C['C133'] = ('proved', ['C133_deriv_forward', 'C133_curl_forward', 'C133_curl_back', 'C133_fdtd_error', 'C133_fdtd_second_order', 'C133_fdfd_error', 'C133_fdfd_second_order'], 'Errors are measured in the energy norm of the grid (cell volumes times media). The H widths are not the ones the documentation suggests, see C132.')
C['C134'] = ('proved', ['C134_surface', 'C134_planes', 'C134_mode_overlap', 'C134_conjugate_surface', 'C134_power_planes'], 'No PEC/PMC masks. The mode corollary is for polarity +1 in a guide whose cross-section window is the whole cross-section (C51 for the limits of expand_e).')
C['C135'] = ('proved', ['C135_exact', 'C135_balance', 'C135_shift', 'C135_lossless', 'C135_decay', 'C135_damped'], 'The widths are held fixed along the branch (an SCPML that depends on the frequency is not varied with it).')
C['C136'] = ('proved', ['C136_two_media', 'C136_slope', 'C136_frequency'], 'Holds also where the basis of generate_kmn is wrong (C58), since only the operator and hmn_2_exyz enter; where the operator is NaN there are no modes. Non-magnetic (mu=None).')
C['C137'] = ('partial', ['C137_get_tr', 'C137_get_abcd', 'C137_get_s_partial', 'C137_reciprocal_phase_fails_partial'], 'get_tr and the matrix assembled by get_abcd (which raises when it is returned, see C154) are covariant for all phases and orders. get_s without options keeps all magnitudes; with force_reciprocal this holds for sign changes only: for any waveguide joined to itself whose modes are a quarter period out of phase on the right, get_s(force_reciprocal=True) returns the zero matrix. force_nogain is not covered here, see C57.')
C['C138'] = ('proved', ['C138_rounded_run', 'C138_linear_growth', 'C138_exact', 'C138_rounding_function', 'C138_nearest'], 'Model/FdtdFloat.lean: each array operation of the updates returns any value with relative error at most u. Overflow and underflow are not modelled. C138_exact: with u = 0 the model is the exact one; C138_rounding_function: every rounding function with relative error u gives a run of the model; C138_nearest: rounding to the nearest number with a given number of binary digits.')
C['C139'] = ('partial', ['C139_packet_spectrum', 'C139_packet_real_spectrum', 'C139_packet_energy', 'C139_packet_width_partial', 'C139_packet_time_width_partial', 'C139_ricker_spectrum', 'C139_ricker_peak'], 'Everything holds except the width: the code uses alpha = fwhm^2 log(2)/8 where its docstring implies fwhm^2/(16 log(2)), so the full width at half maximum is sqrt(2) log(2) = 0.980 times the documented one (C139_packet_width_partial). The FWHM_time of the docstring is twice the width of the envelope (C139_packet_time_width_partial). The pulses are read as functions of the real time ii*dt; sampling at integer ii is not covered. one_sided is excluded.')
C['C140'] = ('proved', ['C140_operator', 'C140_modes', 'C140_fields', 'C140_orthogonal', 'C140_attenuation', 'C140_lossless', 'C140_monotone', 'C140_guided', 'C140_fundamental', 'C140_group', 'C140_second', 'C140_solver'], 'Periodic boundaries of the cross-section, as in the code. The branch of C140_group is assumed continuous, as in C97.')
C['C141'] = ('proved', ['C141_exact', 'C141_gradient', 'C141_cell'], 'Grids given by dxes. Scripts without CPML and without the conducting-boundary updaters.')
C['C142'] = ('proved', ['C142_amplitude', 'C142_expansion', 'C142_peak', 'C142_fredholm', 'C142_reactive', 'C142_foster', 'C142_monotone', 'C142_antiresonance'], 'Exact arithmetic; by C124_solver the field is the one generic() returns outside the conductor when its matrix solver is exact.')
C['C143'] = ('proved', ['C143_conductor', 'C143_bounded', 'C143_decays'], 'Exact arithmetic. The component along the axis is not affected by the layers and is not part of the statement about decay.')
C['C144'] = ('proved', ['C144_power', 'C144_unique', 'C144_exists_unique', 'C144_solver', 'C144_uniform', 'C144_stretch', 'C144_stretch_both'], 'One dimension (a grid one cell wide across the axis of the layers), no PEC/PMC masks, e^{+i omega t} convention of the library (omega > 0).')
C['C145'] = ('proved', ['C145_scattered', 'C145_polarisation', 'C145_magnetic', 'C145_optical', 'C145_passive', 'C145_extinction', 'C145_fdtd'], 'C145_magnetic without PEC/PMC masks and with the sign of operators.m2j (functional.m2j has the opposite sign, see the disagreement recorded for C24).')
C['C146'] = ('proved', ['C146_interface', 'C146_power', 'C146_fresnel', 'C146_staircase', 'C146_layer'], 'The equation is asserted in the inner cells 0 < i < n-1; the two outermost cells couple through the periodic wrap and hold the source or absorber.')
C['C147'] = ('proved', ['C147_h_full', 'C147_fields', 'C147_fdtd', 'C147_operator_h', 'C147_mode', 'C147_conversions'], 'The dual cells are given by explicit index maps (back, toE, toH), independent of the operators.')
C['C148'] = ('proved', ['C148_fixed', 'C148_conserved_e', 'C148_conserved_h', 'C148_only', 'C148_residual', 'C148_after_sources', 'C148_point_source'], 'Periodic boundaries as in the plain updates; no CPML or conducting boundary.')
C['C149'] = ('proved', ['C149_local', 'C149_splits', 'C149_entries', 'C149_shielded', 'C149_dark', 'C149_magnetic_field', 'C149_generic', 'C149_magnetic_wall', 'C149_box', 'C149_dark_box', 'C149_magnetic_box'], 'Loss (or gain) of one sign is assumed only where uniqueness of the solution is needed; generic enters with an exact matrix solver as in C32 and solvable problems.')
C['C150'] = ('proved', ['C150_fdtd', 'C150_e_full', 'C150_h_full', 'C150_solutions', 'C150_conversions', 'C150_upml', 'C150_upml_stretch', 'C150_modes', 'C150_operator_e'], 'stretch_with_scpml as in C38_layer_only: positive real grid, profile real on the reals, thickness at least 1.')
C['C151'] = ('partial', ['C151_curl', 'C151_updates', 'C151_wave', 'C151_poynting', 'C151_poynting_partial', 'C151_expand_partial', 'C151_cpml', 'C151_cpml_mixed', 'C151_integer_partial'], 'Curls and updates: proved (value or exception, with the exact condition). Poynting vectors and expand_e: exact when the type of e is the largest; otherwise negation proved with witnesses on every grid (real part only, no exception). CPML: exact condition for real/complex fields. Kinds only: float32/float64 rounding is not distinguished.')
C['C152'] = ('proved', ['C152_layers', 'C152_open', 'C152_free', 'C152_converges', 'C152_one_sided', 'C152_meets'], 'One-dimensional grids (one cell along the two other axes), uniform widths before the stretch. exp(ln_R) is the amplitude, the power is exp(2 ln_R) (the docstring says reflectance). The constant C is not explicit. uniform_grid_scpml uses other profiles (C68) and is not covered.')
C['C153'] = ('proved', ['C153_layers', 'C153_open', 'C153_free', 'C153_regular', 'C153_converges', 'C153_meets'], 'Components of E across the axis of the layers; cells of equal width along the axis before stretching; permeability 1. Evanescent components enter the uniqueness theorem only. The component along the axis follows from the other two by the divergence equation and is not stated separately.')
C['C154'] = ('partial', ['C154_accepts_iff', 'C154_raises_partial', 'C154_scatters_but_raises_partial', 'C154_repaired_partial'], 'False of the code: get_abcd gives four dense arrays of one shape to scipy.sparse.block_array, which turns the table into an object array with four axes and raises ValueError: blocks must be 2-D. It raises for every input. Proved: the check accepts a table of equal entries exactly if they are not dense arrays; with the blocks converted to sparse arrays first, the call returns the matrix C56 and C137 are about.')
C['C155'] = ('partial', ['C155_source', 'C155_overlap_partial', 'C155_none_raises_partial', 'C155_negative_nan_partial', 'C155_negative_defined_partial'], 'Proved for compute_source. False of compute_overlap_e, which does arithmetic on slices[axis].start: negations proved for None, for planes -1 and -2 (polarity -1) and for plane 1-n (polarity +1); C155_overlap_partial gives the spellings for which it holds.')
C['C156'] = ('partial', ['C156_residual_partial', 'C156_adjoint_residual_partial', 'C156_error_partial', 'C156_silent_partial'], 'Proved under reported convergence; negation proved for a solver that stops without converging. Exact arithmetic: the residual recursion inside qmr is not modelled, only its promise. The adjoint branch raises with scipy >= 1.14 (C32); C156_adjoint_residual_partial is about arrays with .H.')
C['C157'] = ('proved', ['C157_fdtd_tile', 'C157_fdtd_fold', 'C157_e_full_tile', 'C157_e_full_fold', 'C157_solutions', 'C157_resonances', 'C157_generic'], 'The fold theorems (sums over copies) make the solution theorem an equivalence; lossy case uses C83 uniqueness. Repetition is written with the remainder of the index (Fin.modNat).')
C['C158'] = ('proved', ['C158_operator', 'C158_bands', 'C158_fields', 'C158_phase'], 'The range of offsets j is 0..N-1 for an even number of cells and -(N/2).. for an odd number, which makes fftfreq of the supercell N*fftfreq + j exactly.')
C['C159'] = ('partial', ['C159_lipschitz_partial', 'C159_jump_partial'], 'Proved wherever the basis of generate_kmn is transverse; elsewhere the negation is proved (cause: bloch.py:166-172, see C58).')
C['C160'] = ('proved', ['C160_residual', 'C160_field', 'C160_attained', 'C160_media', 'C160_solvable', 'C160_frequency', 'C160_solver'], 'Exact arithmetic. C160_solver is for structures without PEC cells and under reported convergence (C156 shows that generic returns silently otherwise).')
C['C161'] = ('proved', ['C161_ports', 'C161_reciprocity', 'C161_power', 'C161_scattering', 'C161_coefficients'], 'The equation is asserted in the inner cells of the row; the two outermost cells couple through the periodic wrap and hold the source or absorber (as in C146). Normal incidence.')
C['C162'] = ('proved', ['C162_decay', 'C162_passes', 'C162_eigsolve', 'C162_returns', 'C162_one_mode', 'three_waves_stop', 'three_waves_two'], 'Exact arithmetic. The line search is a parameter (`minimize_scalar`); C162_decay, C162_passes and C162_eigsolve need only that it does no worse than theta = 0, C162_one_mode that it is exact. The NaN case is the one of C128.')
C['C163'] = ('proved', ['C163_limit_points', 'C163_limit', 'C163_one_mode', 'C163_preconditioner', 'C163_bloch', 'three_waves_run', 'C163_bloch_case'], 'Exact arithmetic and exact line search. Which eigenvalue is reached depends on the guess (a guess in an invariant subspace never leaves it), so no theorem says that it is the lowest band. Excluded are wave vectors along y (the basis of C58 divides by zero) and zero (the approximate inverse divides by zero, C60).')
C['C164'] = ('proved', ['C164_grid', 'C164_bands', 'C164_algebraic', 'C164_case'], 'Exact arithmetic. Says that every band of the crystal is approximated, with its multiplicity; that the operator has no further (spurious) bands is not part of the claim. modulated_mode is a mode of a modulated crystal in closed form.')
C['C165'] = ('proved', ['C165_limit', 'C165_count', 'C165_gap', 'C165_exact', 'C165_gap_case', 'C165_exact_case'], 'Exact arithmetic. gridField_hxyz identifies the coefficients with those of the field returned by hmn_2_hxyz. How fine the grid must be is not given explicitly.')
C['C166'] = ('proved', ['C166_index', 'C166_reactive', 'C166_group', 'C166_dispersion', 'C166_bend', 'C166_bend_group', 'C166_case'], 'Non-dispersive materials; the branch is assumed continuous, as in C97. The fields of the bent mode are those of C140 (waveguide_cyl.exy2e is not right, see C47).')
C['C167'] = ('proved', ['C167_reduction', 'C167_row', 'C167_interface', 'C167_power', 'C167_total', 'C167_scattering', 'C167_tm', 'C167_case'], "C167_reduction: e_full on the grid equals the phase times e_full on the row, other components zero. C167_row: every layered grid has its row for every phase that fits the period. C167_interface: the grid's Fresnel equations as an equivalence. C167_power and C167_total: existence, uniqueness and power balance below and above the critical angle. C167_scattering: passive stacks (with C161). C167_tm: h_full via the dual grid (C147). C167_case: one grid with total and partial reflection.")
C['C168'] = ('proved', ['C168_power', 'C168_passive', 'C168_solvable', 'C168_bound', 'C168_lorentzians', 'C168_sum_rule', 'C168_point_source'], 'Exact arithmetic. C168_power for complex permittivity; C168_lorentzians and C168_sum_rule for lossless media. C168_point_source shows that the family of fields in the sum rule exists and is unique.')
C['C169'] = ('proved', ['C169_pec_part', 'C169_pmc_part', 'C169_pec', 'C169_pec_driven', 'C169_pec_resonances', 'C169_pec_simulation', 'C169_pmc', 'C169_pmc_driven', 'C169_pmc_resonances', 'C169_pmc_simulation', 'C169_parity', 'C169_case'], 'Exact arithmetic. Bloch phases are not part of e_full; the whole grid is periodic with an even number of cells along the axis.')
C['C170'] = ('proved', ['C170_trial', 'C170_mode_number', 'C170_multiplicity', 'C170_second', 'C170_solver', 'C170_plane_waves', 'C170_propagating'], 'Exact arithmetic; C170_solver takes the contract that C46 proves for solve_modes on lossless problems (unit eigenvector of the m-th largest eigenvalue). Multiple modes at the same wavenumber are counted with multiplicity.')
C['C171'] = ('proved', ['C171_transfer', 'C171_repeated', 'C171_bloch', 'C171_lossless', 'C171_gap', 'C171_mirror', 'C171_band', 'C171_windows', 'C171_single'], 'Exact arithmetic. The fields are those satisfying the e_full equation in all inner cells of the row; that they exist for every incoming wave is C161_scattering.')
C['C172'] = ('proved', ['C172_orthogonal', 'C172_power_orthogonal', 'C172_reciprocity', 'C172_symmetric', 'C172_power', 'C172_unitary', 'C172_mode'], 'Exact arithmetic. The backward waves are mirror images of the polarity -1 modes, since solve_mode returns the longitudinal E of those with the wrong sign (C51). Degenerate waves have to be made orthogonal first (allowed by the definition of a port). Ports are planes of one axis. C177 shows that every field without sources at such a plane is a sum of the waves, C178 that the waves form a port, C179 that the scattering matrix exists and is unique without trapped fields.')
C['C173'] = ('proved', ['C173_branch', 'C173_real', 'C173_power', 'C173_derivative', 'C173_group', 'C173_bend'], 'Exact arithmetic. Simple means algebraic multiplicity one; at multiple eigenvalues branches may cross or be only continuous. Removes the assumption of a continuous branch from C97, C122, C140 and C166 for simple modes.')
C['C174'] = ('proved', ['C174_branch', 'C174_lossless'], 'Exact arithmetic. Removes the assumption of a continuous branch from C135 for nondegenerate resonances. Static fields (omega = 0) are excluded.')
C['C175'] = ('proved', ['C175_branch', 'C175_slopes'], 'Exact arithmetic. Removes the assumption of a continuous branch from C113 and C136 for nondegenerate bands. Where a plane wave has kx = 0 the vector m of generate_kmn jumps (C58, C113), so the coefficients cannot be continuous there.')
C['C176'] = ('proved', ['C176_array', 'C176_mirror', 'C176_exchange', 'C176_dual'], 'Exact arithmetic, padded_size equal to the size of the field (with padding the halves are swapped, C81). The phase of a mirror image comes from the cell taken as origin, index (n+1)//2: half a cell from the centre for even n, one cell for odd n (fftshift in place of ifftshift).')
C['C177'] = ('proved', ['C177_complete', 'C177_port', 'C177_distinct'], 'The converse of C51: not only are the expanded modes solutions, all solutions are sums of them. The waves are written out (profile from exy2e, half-cell factor from the corrected wavenumber) because solve_mode itself normalises to unit power and cannot return evanescent modes. The excluded values are real exceptions: at cutoff the two directions coincide and a purely axial field can appear.')
C['C178'] = ('proved', ['C178_nondegenerate', 'C178_port', 'C178_amplitudes', 'C178_orthogonal'], 'Exact arithmetic. The integral has both terms, as the docstring of waveguide_3d.compute_overlap_e announces it (E x H_mode + E_mode x H, with the sign that belongs to the reversed mode); that function itself returns a multiple of the mode field on two planes instead. The waves are those of C177 (profile from exy2e, half-cell factor from the corrected wavenumber).')
C['C179'] = ('proved', ['C179_iff', 'C179_matrix', 'C179_straight', 'C179_balance', 'C179_power', 'C179_absorbing'], 'Exact arithmetic. The modes at the ports are those of C177 (profile from exy2e, half-cell factor from the corrected wavenumber); which direction counts as incoming is free. Absorbing everywhere means Im(epsilon) < 0 from two planes after the first port to two planes before the second, at least two planes; lossless devices can trap fields, for which no scattering matrix exists. That outgoing waves carry no power inwards is an assumption there (it can fail: backward waves); it is checked for guides one cell wide.')
C['C180'] = ('proved', ['C180_cascade', 'C180_ports_moved', 'C180_straight'], 'Exact arithmetic. All modes at the joint are kept, evanescent ones included; with fewer modes the rule is an approximation. The matrix refers waves to a common origin along the axis, so that moving a port multiplies no entry by a phase.')
C['C181'] = ('proved', ['C181_reciprocal', 'C181_mode_power', 'C181_unitary', 'C181_orthogonal'], 'Exact arithmetic. The weights and powers are sums of e_cross_h over the plane of the port. The power of a travelling mode may point against its phase (backward waves): N then has both signs and the matrix conserves the signed power. Modes with one wavenumber are assumed orthogonal in the sense of reciprocity or of power; C178_orthogonal and C181_orthogonal show that they can always be chosen so.')
C['C182'] = ('proved', ['C182_e_full', 'C182_h_full', 'C182_sharp', 'C182_count', 'C182_first_order', 'C182_modes'], 'Counts entries that differ from zero. scipy may store explicit zeros (products with PEC and PMC masks, cancelled sums) at positions of the same stencil.')
C['C183'] = ('proved', ['C183_flux', 'C183_work', 'C183_spectrum', 'C183_run', 'C183_cpml'], 'Real arithmetic. poynting_e_cross_h is called with the conjugate of H as its second argument, as the time averages in meanas do. C120_damped supplies the damping that C183_cpml asks for (example in the file).')
C['C184'] = ('partial', ['C184_curl', 'C184_update', 'C184_media', 'C184_three_numbers_partial', 'C184_poynting', 'C184_energy_partial', 'C184_dxmul_partial', 'C184_dxmul_default', 'C184_dxmul_grows_partial', 'C184_sparse_partial'], "Proved in full for the curls, updates and poynting. False of the rest: the matrix curl compares only numbers of cells (lists in the wrong order pass, one width for all does not); delta_energy_j and dxmul (the stored energies) on a flat grid accept any number of widths across it or cells of a medium across it and return that many cells; a medium [ex, ey, ez] of shape (3,) passes on grids with three cells along z and means three layers. numpy's broadcasting rules are part of the trusted reading.")
C['C185'] = ('partial', ['C185_joined_iff', 'C185_exact', 'C185_transfer', 'C185_inverse', 'C185_scaled', 'C185_any_scale_partial', 'C185_abcd_any_scale_partial', 'C185_modes', 'C185_metal_partial', 'C185_metal_hypotheses'], 'get_tr returns the exact amplitudes if and only if the exact transmission matrix does not increase the sum of squared amplitudes. This is false in general once decaying modes are kept: at a lossless metal that reflects everything, get_tr inverts the singular value 8/5 and reflects 15 % of the power; scaling the modes of the metal by two makes it exact (C185_scaled: get_tr is always exact if the right modes are scaled up far enough, but at the metal no scale makes it exact in both directions and get_abcd is wrong for every scale). get_abcd is exact if and only if the exact transmission shows no gain in either direction (C185_transfer; get_abcd taken at the meaning of its blocks, as in C56). C185_modes shows that the hypotheses hold for all modes of a cross-section with equal real widths and different wavenumbers.')
