#!/usr/bin/env python3
"""Writes ../properties.jsonl. Each entry: id, title, statement, quantifier, why_tests_cant, anchors."""
import json, os
P = []
def p(id, title, statement, quantifier, why, anchors):
    P.append(dict(id=id, title=title, statement=statement, quantifier=quantifier,
                  why_tests_cant=why, anchors=anchors))

# ---------------------------------------------------------------- fdmath
p("C01", "Sparse and functional finite-difference operators agree",
  "For every field F, unvec(operators.X(...) @ vec(F), F.shape[1:]) equals functional.X(...)(F), for X each of the forward/backward derivatives along every axis and the forward/backward curl; building the sparse operator never raises for a 3D (2D) grid and a valid axis.",
  "every grid shape with nonempty axes, every list of nonzero cell widths (uniform or not, real or complex), every field value",
  "Tests compare a few random fields on a few shapes; agreement must hold for every shape (including axes of length 1 and 2 where wrap-around aliases) and every cell-width list.",
  ["meanas/fdmath/operators.py:deriv_forward", "meanas/fdmath/operators.py:deriv_back", "meanas/fdmath/operators.py:curl_forward", "meanas/fdmath/operators.py:curl_back", "meanas/fdmath/functional.py:deriv_forward", "meanas/fdmath/functional.py:deriv_back", "meanas/fdmath/functional.py:curl_forward", "meanas/fdmath/functional.py:curl_back", "meanas/fdmath/vectorization.py:vec"])
p("C02", "vec and unvec are inverse and use C order",
  "unvec(vec(F), shape) returns F and vec(unvec(v, shape)) returns v; entry (c, i, j, k) of F sits at position ((c*nx+i)*ny+j)*nz+k; None is passed through unchanged in both directions; unvec of a vector of the wrong length is an error.",
  "every shape, every number of components, every field",
  "A round-trip and layout law over all shapes and sizes; tests fix a handful.",
  ["meanas/fdmath/vectorization.py:vec", "meanas/fdmath/vectorization.py:unvec"])
p("C03", "Circular shift operator is the cyclic group action",
  "shift_circ(axis, shape, s) @ vec(f) is vec of f sampled s cells further along the axis with periodic wrap-around, for every integer s (positive, negative, larger than the axis); shifts compose additively, s and s+n give the same matrix, and the transpose is the inverse shift. A shape that is not 2D/3D or an axis outside range raises.",
  "every 2D or 3D shape, every axis, every integer shift distance",
  "Infinitely many shift distances and shapes; in particular the negative branch is built by transposition and the wrap-around cases need modular arithmetic.",
  ["meanas/fdmath/operators.py:shift_circ"])
p("C04", "Mirror shift operator reflects at the domain edges",
  "shift_with_mirror(axis, shape, s) @ vec(f) samples f at position i+s reflected into the domain (…, 1, 0 | 0, 1, …, n-1 | n-1, n-2, …); it raises for s >= n, and is well defined exactly for -n <= s < n; the result is independent of anything outside the grid.",
  "every 2D or 3D shape, every axis, every integer shift distance",
  "The valid range of s and the reflection rule must hold for all axis lengths; tests do not exercise this function at all.",
  ["meanas/fdmath/operators.py:shift_with_mirror"])
p("C05", "Discrete vector identities: div curl = 0 and curl grad = 0",
  "The backward divergence of curl_back(F) and the forward divergence of curl_forward(F) vanish identically, and curl_forward of the forward gradient / curl_back of the backward gradient vanish identically, in every cell including across the periodic boundary.",
  "every field, every shape, every (non-uniform, possibly complex) nonzero cell-width list",
  "Identities over all fields and grids; floating-point tests only sample.",
  ["meanas/fdmath/functional.py:curl_forward", "meanas/fdmath/functional.py:curl_back", "meanas/fdmath/functional.py:deriv_forward", "meanas/fdmath/functional.py:deriv_back"])
p("C06", "Forward and backward operators are adjoint (summation by parts)",
  "Without cell widths, sum(g * deriv_back(f)) = -sum(f * deriv_forward(g)) and sum(G . curl_back(F)) = sum(F . curl_forward(G)); with cell widths the same holds when each sum is weighted by the cell volume of the lattice on which that quantity lives.",
  "every pair of fields, every shape, every nonzero cell-width pair (dx_e, dx_h)",
  "The identity underlies energy conservation and the symmetry of the wave operator; it quantifies over all pairs of fields on all grids.",
  ["meanas/fdmath/functional.py:deriv_forward", "meanas/fdmath/functional.py:deriv_back", "meanas/fdmath/functional.py:curl_forward", "meanas/fdmath/functional.py:curl_back"])
p("C07", "Curl parts reassemble the curl",
  "For curl_forward_parts and curl_back_parts, the two returned parts of each component add up to the corresponding component of curl_forward / curl_back, and each part contains a derivative along exactly one axis.",
  "every field, shape and cell-width list",
  "Sign and component bookkeeping across six entries must be right for every field.",
  ["meanas/fdmath/functional.py:curl_forward_parts", "meanas/fdmath/functional.py:curl_back_parts"])
p("C08", "Averaging and cross-product operators",
  "avg_forward averages a cell with its forward neighbour and avg_back with its backward neighbour, avg_back is the transpose of avg_forward, both keep constant fields and the total sum unchanged; vec_cross(b) @ vec(a) is the pointwise cross product b x a and is antisymmetric.",
  "every 2D/3D shape, axis and field",
  "Universal over shapes and fields; not tested in the repository.",
  ["meanas/fdmath/operators.py:avg_forward", "meanas/fdmath/operators.py:avg_back", "meanas/fdmath/operators.py:vec_cross", "meanas/fdmath/operators.py:cross"])

# ---------------------------------------------------------------- fdtd
p("C09", "FDTD preserves Gauss's laws",
  "After any number of maxwell_e/maxwell_h steps the forward divergence of mu*H is exactly what it was initially and the backward divergence of epsilon*E is what it was initially; when currents are injected with e += j/epsilon the divergence of epsilon*E changes by exactly the accumulated divergence of j (no spurious charge).",
  "every initial field, every number and interleaving of half-steps and current injections, every grid, epsilon, mu and dt",
  "A statement about histories of unbounded length over all media; tests run six steps from one excitation.",
  ["meanas/fdtd/base.py:maxwell_e", "meanas/fdtd/base.py:maxwell_h"])
p("C10", "Local discrete Poynting theorem",
  "For consecutive half-step fields produced by maxwell_e/maxwell_h (with current injections between), the change of energy_hstep/energy_estep in every cell equals -dt * poynting_divergence plus the work delta_energy_j, exactly.",
  "every field, every cell, every grid accepted by the API (including dx_e != dx_h), every epsilon, mu, dt",
  "Documented as exact; tests only use grids with dx_e == dx_h, so they cannot see what happens on other grids.",
  ["meanas/fdtd/energy.py:poynting", "meanas/fdtd/energy.py:poynting_divergence", "meanas/fdtd/energy.py:energy_hstep", "meanas/fdtd/energy.py:energy_estep", "meanas/fdtd/energy.py:delta_energy_h2e", "meanas/fdtd/energy.py:delta_energy_e2h", "meanas/fdtd/energy.py:delta_energy_j", "meanas/fdtd/energy.py:dxmul"])
p("C11", "Total FDTD energy is conserved for any number of steps",
  "Summed over the grid, energy_estep and energy_hstep are equal to each other and constant in time for any source-free run of maxwell_e/maxwell_h; with injected currents the total changes by exactly the accumulated delta_energy_j work.",
  "every initial state, every run length, every sequence of injected currents, every epsilon, mu, dt on grids with dx_e == dx_h",
  "Induction over unbounded run length; tests run a handful of steps.",
  ["meanas/fdtd/energy.py:energy_hstep", "meanas/fdtd/energy.py:energy_estep", "meanas/fdtd/base.py:maxwell_e", "meanas/fdtd/base.py:maxwell_h"])
p("C12", "The documented time-step bound gives stability",
  "If dt is below the documented bound (dt^2 * (1/dx_min^2 + 1/dy_min^2 + 1/dz_min^2) < eps_min * mu_min, minima over both lattices), every source-free FDTD run stays bounded forever by a constant that depends only on the initial fields.",
  "every initial field, every number of steps, every non-uniform grid with positive widths, every positive epsilon and mu distribution",
  "Stability is a statement about infinitely long runs from every initial condition.",
  ["meanas/fdtd/__init__.py", "meanas/fdtd/base.py:maxwell_e", "meanas/fdtd/base.py:maxwell_h"])
p("C13", "FDTD steps are reversible",
  "Running n leapfrog steps with dt and then undoing them with -dt in the opposite order returns exactly the initial fields.",
  "every state, every run length, every grid and medium with nonzero epsilon, mu and widths",
  "Unbounded run length, all states.",
  ["meanas/fdtd/base.py:maxwell_e", "meanas/fdtd/base.py:maxwell_h"])
p("C14", "FDTD runs obey superposition",
  "The fields after a run driven by a*s1 + b*s2 (initial fields and injected currents combined linearly) are a times the run driven by s1 plus b times the run driven by s2.",
  "every pair of initial states and current histories of equal length, every pair of coefficients",
  "Universal over histories.",
  ["meanas/fdtd/base.py:maxwell_e", "meanas/fdtd/base.py:maxwell_h"])
p("C15", "Numerical light cone: one cell per half step",
  "The fields in a cell after n steps are unaffected by any change of the initial fields, of epsilon, mu or of cell widths at cells more than n cells away (periodic grid distance, per axis).",
  "every state pair agreeing near the cell, every run length, every grid",
  "Two-run (relational) property over all perturbations and all run lengths.",
  ["meanas/fdtd/base.py:maxwell_e", "meanas/fdtd/base.py:maxwell_h", "meanas/fdmath/functional.py:curl_forward"])
p("C16", "FDTD is invariant under periodic translation",
  "Cyclically translating the fields together with epsilon, mu and the cell-width lists commutes with any number of FDTD steps.",
  "every translation distance along every axis, every run",
  "Relational property over all translations and histories; shows that no cell (in particular no boundary cell) is treated specially.",
  ["meanas/fdtd/base.py:maxwell_e", "meanas/fdtd/base.py:maxwell_h", "meanas/fdmath/functional.py:deriv_forward"])
p("C17", "No power is created by the periodic boundary",
  "poynting_divergence sums to zero over the whole grid for every e and h; poynting_divergence(e=e, h=h, dxes=dxes) equals poynting_divergence(s=poynting(e,h,dxes)); calling it with neither s nor all of e, h, dxes is rejected.",
  "every field pair, grid and argument combination",
  "All fields and shapes; argument validation over all combinations of missing arguments.",
  ["meanas/fdtd/energy.py:poynting", "meanas/fdtd/energy.py:poynting_divergence"])
p("C18", "Conducting boundary updaters",
  "conducting_boundary accepts exactly directions 0,1,2 with nonzero polarity; the returned updaters change only the one or two cell layers next to the chosen face, set the documented components there to zero, copy or mirror the others, and applying an updater twice is the same as applying it once.",
  "every direction, polarity, field and shape",
  "Universal over fields and shapes; the module has no tests.",
  ["meanas/fdtd/boundaries.py:conducting_boundary"])
p("C19", "CPML parameters are well-formed",
  "cpml_params rejects invalid axis, polarity, thickness <= 2 and epsilon_eff <= 0; otherwise every decay factor p0 lies strictly between 0 and 1, p1 = p0-1-like gain lies in (-1,0], p2 lies in (0,1] when epsilon_eff*mu_eff >= 1, the absorption |p1| grows strictly towards the outer edge, and the low-side and high-side layers are mirror images of one another (mirroring exchanges the half-cell offsets, so E parameters of one side are the reversed H parameters of the other).",
  "every axis, thickness, order m > 0, dt > 0, negative ln_R, nonnegative cfs_alpha",
  "Real-valued parameter space with exp and real powers; the PML code is untested.",
  ["meanas/fdtd/pml.py:cpml_params"])
p("C20", "CPML updates without PML are the plain updates",
  "With all cpml_params entries None, the update_E / update_H returned by updates_with_cpml change e and h exactly as maxwell_e(dt, dxes) / maxwell_h(dt, dxes) do.",
  "every field, epsilon, mu, dt and grid (including dx_e != dx_h)",
  "Equality over all inputs, in particular on grids no test uses.",
  ["meanas/fdtd/pml.py:updates_with_cpml", "meanas/fdtd/base.py:maxwell_e", "meanas/fdtd/base.py:maxwell_h"])
p("C21", "CPML acts as a recursive convolution confined to its layers",
  "After any number of steps each auxiliary field equals the exponentially weighted sum of the past scaled derivatives inside its layer, cells outside all layers are updated exactly as without PML, and within a layer each derivative along the layer axis is replaced by (derivative/kappa + auxiliary field).",
  "every history of e and h fields, every combination of present/absent layers, every parameter value",
  "State carried across unboundedly many calls; three axes times two polarities with hand-written signs.",
  ["meanas/fdtd/pml.py:updates_with_cpml"])
p("C22", "Source pulses turn on smoothly and keep their phase",
  "gaussian_packet delays its pulse by a whole number of periods, its envelope at step 0 is at most turn_on times its peak, is symmetric about and maximal at the delay, and is non-decreasing up to it; with one_sided the amplitude never decreases after its maximum; ricker_pulse has the documented shape for whatever delay was found.",
  "every wavelength, bandwidth, time step, turn_on in (0,1), every time index",
  "Real-parameter claims with ceil, log and exp; no tests exist.",
  ["meanas/fdtd/misc.py:gaussian_packet", "meanas/fdtd/misc.py:ricker_pulse"])
p("C23", "Gaussian beam is well-defined and normalised",
  "gaussian_beam returns finite values at every requested grid location and its middle z-row has unit norm.",
  "every grid (including grids that contain the waist plane), centre, waist and wavelength",
  "The claim is about every possible sampling grid, including exact coincidences a random test never hits.",
  ["meanas/fdtd/misc.py:gaussian_beam"])

# ---------------------------------------------------------------- fdfd
p("C24", "Sparse and functional FDFD operators agree",
  "For e_full, eh_full, e2h, m2j, e_tfsf_source and the Poynting cross product, the functional version applied to fields equals the sparse version applied to the vectorised fields (PEC/PMC absent), for given and for omitted mu.",
  "every grid, epsilon, mu (given or None), omega, field",
  "The repository only tests the sparse solver; agreement of two independent implementations quantifies over all media.",
  ["meanas/fdfd/operators.py:e_full", "meanas/fdfd/functional.py:e_full", "meanas/fdfd/operators.py:eh_full", "meanas/fdfd/functional.py:eh_full", "meanas/fdfd/operators.py:e2h", "meanas/fdfd/functional.py:e2h", "meanas/fdfd/operators.py:m2j", "meanas/fdfd/functional.py:m2j", "meanas/fdfd/operators.py:e_tfsf_source", "meanas/fdfd/functional.py:e_tfsf_source"])
p("C25", "Preconditioned wave operator is symmetric",
  "With (Pl, Pr) = e_full_preconditioners(dxes), Pl @ e_full @ Pr is a complex-symmetric matrix and Pl, Pr are mutually inverse.",
  "every grid with nonzero, possibly complex (PML-stretched) widths, every diagonal epsilon and mu, every PEC and PMC mask",
  "Solvers (qmr, opencl_fdfd) rely on symmetry for every problem, not the sampled ones.",
  ["meanas/fdfd/operators.py:e_full_preconditioners", "meanas/fdfd/operators.py:e_full"])
p("C26", "First-order and second-order formulations are equivalent",
  "(E, H) solves eh_full @ [E; H] = [J; -M] exactly when E solves e_full @ E = -i*omega*(J + m2j @ M) and H is the field recovered from E (e2h @ E corrected for M); in particular with M = 0, H = e2h @ E.",
  "every grid, epsilon, mu, omega != 0, sources J and M",
  "Equivalence of two systems for all sources and media.",
  ["meanas/fdfd/operators.py:eh_full", "meanas/fdfd/operators.py:e_full", "meanas/fdfd/operators.py:e2h", "meanas/fdfd/operators.py:m2j"])
p("C27", "E and H wave operators are dual",
  "If e_full @ E = 0 then h_full @ (e2h @ E) = 0 and E is recovered from H; both operators have the same source-free solutions.",
  "every grid, nonzero epsilon, mu, omega",
  "All media.",
  ["meanas/fdfd/operators.py:h_full", "meanas/fdfd/operators.py:e_full", "meanas/fdfd/operators.py:e2h"])
p("C28", "PEC and PMC cells decouple from the system",
  "Rows and columns of e_full at PEC positions are zero and e_full @ E does not depend on E there, e2h @ E is zero at PMC positions, h_full rows and columns at PMC positions are zero and its electric quantity is zero at PEC positions; with no conductors the masks have no effect.",
  "every pec/pmc mask, grid and medium",
  "All masks.",
  ["meanas/fdfd/operators.py:e_full", "meanas/fdfd/operators.py:h_full", "meanas/fdfd/operators.py:e2h", "meanas/fdfd/operators.py:eh_full"])
p("C29", "Total-field/scattered-field source launches exactly the given field",
  "If e_full @ E = 0 then the field equal to E inside the mask and 0 outside solves e_full @ X = -i*omega * (e_tfsf_source(mask) @ E); the source vanishes in every cell whose curl-curl neighbourhood lies entirely inside or entirely outside the mask.",
  "every mask, grid, medium, field",
  "All masks and fields.",
  ["meanas/fdfd/operators.py:e_tfsf_source", "meanas/fdfd/functional.py:e_tfsf_source"])
p("C30", "Boundary source equals the TFSF source",
  "e_boundary_source(mask) yields the same currents as e_tfsf_source(mask) in every cell next to the mask boundary (and no others), so that it launches the same field.",
  "every mask shape and grid, periodic or mirror edges",
  "The neighbour detection is combinatorial in the mask; corner geometries are easily missed by tests.",
  ["meanas/fdfd/operators.py:e_boundary_source", "meanas/fdfd/operators.py:e_tfsf_source"])
p("C31", "Poynting operators and frequency-domain energy balance",
  "operators.poynting_e_cross(E) @ H equals functional.poynting_e_cross_h(E, H) equals -operators.poynting_h_cross(H) @ E; and for a lossless source-driven solution of the FDFD equations the total outward divergence of the time-averaged Poynting vector equals the power delivered by J (cell by cell, Yee volumes).",
  "every field, grid, real epsilon and mu, real omega",
  "All fields and grids.",
  ["meanas/fdfd/operators.py:poynting_e_cross", "meanas/fdfd/operators.py:poynting_h_cross", "meanas/fdfd/functional.py:poynting_e_cross_h"])
p("C32", "generic() solves the equation it was asked to solve",
  "If the supplied matrix solver returns an exact solution of the system it is given, generic() returns E with e_full @ E = -i*omega*J, and with adjoint=True the conjugate-transpose system; a supplied E_guess equal to the solution is translated to an exact initial guess.",
  "every J, grid, medium, PEC/PMC, adjoint flag, guess, and every matrix solver meeting its contract",
  "Quantifies over all solvers and problems.",
  ["meanas/fdfd/solvers.py:generic"])
p("C33", "Solver calls do not interfere with one another or with callbacks",
  "A user callback passed in matrix_solver_opts is called once per iteration by the default solver, and a call to generic() is not influenced by earlier calls with the same options dictionary.",
  "every callback, every sequence of generic() calls sharing an options dict",
  "History dependence through a mutated dictionary and self-referential closure.",
  ["meanas/fdfd/solvers.py:_scipy_qmr", "meanas/fdfd/solvers.py:generic"])
p("C34", "Frequency-domain charge conservation",
  "Every solution of e_full @ E = -i*omega*J satisfies the discrete continuity equation: the backward divergence of epsilon*E is determined by the backward divergence of J (and is zero for divergence-free J).",
  "every grid, medium, source and solution (no PEC)",
  "All solutions and media.",
  ["meanas/fdfd/operators.py:e_full"])
p("C35", "Time-harmonic FDTD and FDFD agree",
  "A time-harmonic field E*exp(-i*w*n*dt) (H at half steps) is a source-free FDTD run exactly when E solves the FDFD wave equation at the documented discrete frequency 2*sin(w*dt/2)/dt.",
  "every grid, medium, dt, w",
  "Connects two solvers for all fields.",
  ["meanas/fdtd/base.py:maxwell_e", "meanas/fdtd/base.py:maxwell_h", "meanas/fdfd/operators.py:e_full", "meanas/fdmath/__init__.py"])
p("C36", "Plane-wave dispersion relation",
  "On a uniform periodic grid a transverse discrete plane wave solves the FDFD wave equation exactly when omega^2*eps*mu equals the documented sum of (2/dx_a * sin(k_a dx_a/2))^2, and the FDTD update multiplies it by the matching phase.",
  "every wave vector compatible with the grid, every polarisation, every grid spacing",
  "All wave vectors and polarisations.",
  ["meanas/fdmath/__init__.py", "meanas/fdfd/operators.py:e_full", "meanas/fdfd/functional.py:e_full"])
p("C37", "uniform_grid_scpml stretches only the absorber",
  "Every returned cell width has real part 1; cells outside the layers are exactly 1; a zero thickness gives all ones; widths are mirror-symmetric about the grid centre; with the default profile the imaginary part has one fixed sign and grows towards the edge.",
  "every shape, thickness, omega, epsilon_effective and profile function",
  "All sizes and profiles.",
  ["meanas/fdfd/scpml.py:uniform_grid_scpml", "meanas/fdfd/scpml.py:prepare_s_function"])
p("C38", "stretch_with_scpml stretches only the requested side",
  "For a real grid the real part of all widths and all widths outside the chosen layer are unchanged; calling it for both sides of an axis gives the same grid in either order; thickness 0 leaves the grid unchanged.",
  "every grid, axis, polarity, thickness (including 0) and profile",
  "All grids and call orders; thickness 0 is an unlikely test case.",
  ["meanas/fdfd/scpml.py:stretch_with_scpml"])

# ---------------------------------------------------------------- waveguides
p("C39", "Waveguide E-eigenvectors are Maxwell modes",
  "If e_xy is an eigenvector of waveguide_2d.operator_e with eigenvalue beta^2 (beta, omega nonzero), then e = exy2e @ e_xy and h = exy2h @ e_xy satisfy both discrete curl equations, e2h @ e = h, h2e @ h = e, exy2h agrees with e2h of exy2e, and e_err / h_err of the mode are zero. Conversely, e_err (h_err) of a field is zero only if the field is the E (H) field of a mode with that beta and omega, and NaN only for the zero field.",
  "every 2D grid, every nonzero epsilon and mu, every omega and beta, every eigenvector",
  "All cross-sections and modes.",
  ["meanas/fdfd/waveguide_2d.py:operator_e", "meanas/fdfd/waveguide_2d.py:exy2e", "meanas/fdfd/waveguide_2d.py:exy2h", "meanas/fdfd/waveguide_2d.py:e2h", "meanas/fdfd/waveguide_2d.py:h2e", "meanas/fdfd/waveguide_2d.py:e_err"])
p("C40", "Waveguide H-eigenvectors are Maxwell modes",
  "If h_xy is an eigenvector of waveguide_2d.operator_h with eigenvalue beta^2 (beta, omega nonzero), then h = hxy2h @ h_xy and e = hxy2e @ h_xy satisfy both discrete curl equations, and h_err is zero.",
  "every 2D grid, medium, omega, beta, eigenvector",
  "All cross-sections and modes.",
  ["meanas/fdfd/waveguide_2d.py:operator_h", "meanas/fdfd/waveguide_2d.py:hxy2h", "meanas/fdfd/waveguide_2d.py:hxy2e", "meanas/fdfd/waveguide_2d.py:h_err"])
p("C41", "The E and H mode problems have the same spectrum",
  "beta^2 (beta nonzero) is an eigenvalue of operator_e exactly when it is one of operator_h, the transverse parts of a mode's fields being the two eigenvectors; conversely every (e, h) with exp(-i beta z) dependence that satisfies the discrete curl equations arises this way.",
  "every 2D grid and medium, omega nonzero",
  "All spectra.",
  ["meanas/fdfd/waveguide_2d.py:operator_e", "meanas/fdfd/waveguide_2d.py:operator_h"])
p("C42", "Normalised modes carry unit power with a fixed sign",
  "normalized_fields_e / normalized_fields_h return a scalar multiple of the mode whose inner_product with itself (conjugated H) has real part 1; modes with non-positive forward power are rejected; the result does not depend on positive rescaling of the input eigenvector.",
  "every mode with positive power, every 2D grid and propagation phase",
  "All modes; rejection branch.",
  ["meanas/fdfd/waveguide_2d.py:_normalized_fields", "meanas/fdfd/waveguide_2d.py:normalized_fields_e", "meanas/fdfd/waveguide_2d.py:inner_product"])
p("C43", "Mode inner product works on every cross-section",
  "waveguide_2d.inner_product returns the E x H overlap integral for every grid, including non-square and non-uniform cross-sections; it is linear in e, linear (or antilinear with conj_h) in h.",
  "every 2D shape (nx != ny included), every cell-width list, every field",
  "Shape errors appear only for shapes that tests do not cover.",
  ["meanas/fdfd/waveguide_2d.py:inner_product"])
p("C44", "Modes are orthogonal",
  "Two modes of the same cross-section with different beta^2 are orthogonal under the (unconjugated) transverse E x H sum weighted with the cell areas.",
  "every pair of modes of every waveguide",
  "All media and mode pairs.",
  ["meanas/fdfd/waveguide_2d.py:operator_e", "meanas/fdfd/waveguide_2d.py:inner_product", "meanas/fdfd/eme.py:get_tr"])
p("C45", "sensitivity() is the derivative of the wavenumber",
  "waveguide_2d.sensitivity returns, for each cell and component of epsilon, the derivative of the mode's wavenumber with respect to that entry.",
  "every non-degenerate mode, every epsilon entry, every grid",
  "A derivative with respect to every parameter at every point; finite-difference tests only sample.",
  ["meanas/fdfd/waveguide_2d.py:sensitivity"])
p("C46", "solve_modes returns the requested modes",
  "Given an eigensolver meeting its contract, solve_modes returns, for each requested mode number m, an eigenvector with the (m+1)-th largest eigenvalue, and wavenumbers whose squares are these eigenvalues with non-negative real part, in the order requested.",
  "every list of mode numbers, every spectrum (including evanescent modes), every omega",
  "Depends on the ordering of arbitrary spectra and request lists.",
  ["meanas/fdfd/waveguide_2d.py:solve_modes", "meanas/eigensolvers.py:signed_eigensolve"])
p("C47", "Bent-waveguide eigenvectors are Maxwell modes of the bend",
  "If e_xy is an eigenvector of waveguide_cyl.cylindrical_operator then the fields from exy2e / exy2h / e2h satisfy the discrete Maxwell equations in the bend.",
  "every grid, bend radius, medium, omega and eigenvector",
  "All media and modes.",
  ["meanas/fdfd/waveguide_cyl.py:cylindrical_operator", "meanas/fdfd/waveguide_cyl.py:exy2e", "meanas/fdfd/waveguide_cyl.py:e2h"])
p("C48", "The bent waveguide reduces to the straight one",
  "When the radial scale factors are 1 the cylindrical operator, exy2e and e2h coincide (up to the documented sign of h) with waveguide_2d's with mu = 1; the scale factors tend to 1 as the bend radius grows.",
  "every grid, medium, omega, beta",
  "All media; a limit.",
  ["meanas/fdfd/waveguide_cyl.py:cylindrical_operator", "meanas/fdfd/waveguide_cyl.py:dxes2T", "meanas/fdfd/waveguide_2d.py:operator_e"])
p("C49", "linear_wavenumbers uses a radius inside the waveguide",
  "The radius by which linear_wavenumbers divides each angular wavenumber is an energy-weighted mean of the grid radii, so it lies between the smallest and the largest radius of the cross-section.",
  "every mode with nonzero energy, every grid with positive widths, every epsilon >= 0",
  "All modes.",
  ["meanas/fdfd/waveguide_cyl.py:linear_wavenumbers"])
p("C50", "3D mode solver handles every axis consistently",
  "solve_mode permutes axes so that the 2D problem's third axis is the propagation axis, and places the 2D field components back on the matching 3D components and cells; the correction makes 2*sin(wavenumber*dx/2)/dx equal the 2D wavenumber.",
  "every axis, slice and field; every wavenumber",
  "Permutation bookkeeping for all axes and cells.",
  ["meanas/fdfd/waveguide_3d.py:solve_mode"])
p("C51", "Expanded modes solve the 3D wave equation",
  "In a region uniform along the propagation axis (uniform spacing, constant cross-section), the mode returned by solve_mode and expanded by expand_e satisfies the source-free 3D FDFD equations away from the periodic seam.",
  "every axis, polarity, cross-section and mode",
  "All media and modes; needs the exact half-cell phases.",
  ["meanas/fdfd/waveguide_3d.py:solve_mode", "meanas/fdfd/waveguide_3d.py:expand_e"])
p("C52", "expand_e continues the slice field with the propagation phase",
  "expand_e leaves the field on the mode slice unchanged, is zero outside the transverse window, and multiplies by exp(-i*polarity*wavenumber*distance) between any two planes.",
  "every field, axis, polarity, slice and grid",
  "All fields and grids.",
  ["meanas/fdfd/waveguide_3d.py:expand_e"])
p("C53", "compute_overlap_e is normalised",
  "sum(overlap_e * conj(E_mode_expanded)) = 1 for the mode itself and the overlap is linear in the other field.",
  "every mode, axis, polarity, and slice position in the domain (including near its start)",
  "All positions; the failing ones are at the domain edge.",
  ["meanas/fdfd/waveguide_3d.py:compute_overlap_e"])
p("C54", "compute_source only excites the source plane",
  "compute_source returns currents that are zero except in the cell layers adjacent to the chosen plane, and equal there to the TFSF currents of the half-space beyond it.",
  "every mode field, axis, polarity, slice",
  "All positions.",
  ["meanas/fdfd/waveguide_3d.py:compute_source"])

# ---------------------------------------------------------------- eme / bloch / farfield / eigensolvers
p("C55", "EME transmission is passive",
  "All singular values of the transmission matrix from get_tr are at most 1; identical, orthogonal, normalised mode sets on both sides give full transmission and no reflection.",
  "every pair of mode sets for which the function returns",
  "All mode sets.",
  ["meanas/fdfd/eme.py:get_tr"])
p("C56", "get_abcd and get_s describe the same interface",
  "The transfer matrix from get_abcd maps left amplitudes to right amplitudes exactly as the scattering matrix from get_s relates incoming to outgoing amplitudes.",
  "every interface with invertible transmission, all amplitudes",
  "All interfaces and amplitudes.",
  ["meanas/fdfd/eme.py:get_abcd", "meanas/fdfd/eme.py:get_s"])
p("C57", "S-matrix options deliver what they promise",
  "With force_reciprocal the returned S is symmetric; with force_nogain S @ S^H is diagonal and no singular value exceeds 1.",
  "every S-matrix",
  "All matrices.",
  ["meanas/fdfd/eme.py:get_s"])
p("C58", "Bloch transverse basis is orthonormal",
  "generate_kmn returns for every nonzero k-point unit vectors m, n orthogonal to each other and to k.",
  "every k0, reciprocal lattice and grid shape",
  "Fails only on special k-points (a plane of measure zero).",
  ["meanas/fdfd/bloch.py:generate_kmn"])
p("C59", "Bloch Maxwell operator is Hermitian and definite",
  "The operator from maxwell_operator (mu omitted) is Hermitian and negative semidefinite for real positive epsilon, so eigenfrequencies sqrt(-eigenvalue) are real.",
  "every epsilon > 0, k0, lattice, pair of vectors",
  "All vectors and media.",
  ["meanas/fdfd/bloch.py:maxwell_operator"])
p("C60", "Approximate inverse is exact for homogeneous media",
  "For constant epsilon (mu omitted) and k != 0 the preconditioner from inverse_maxwell_operator_approx inverts the Maxwell operator up to sign, and both act as multiplication by -k^2/eps and eps/k^2.",
  "every k, lattice, vector",
  "All vectors.",
  ["meanas/fdfd/bloch.py:inverse_maxwell_operator_approx", "meanas/fdfd/bloch.py:maxwell_operator"])
p("C61", "Bloch fields are transverse",
  "The H field reconstructed by hmn_2_hxyz is divergence-free (k . H = 0 for every plane-wave component) and hmn_2_exyz yields a divergence-free D.",
  "every coefficient vector and k",
  "All vectors.",
  ["meanas/fdfd/bloch.py:hmn_2_hxyz", "meanas/fdfd/bloch.py:hmn_2_exyz"])
p("C62", "Bloch inner_product computes the overlap and leaves its arguments alone",
  "bloch.inner_product(eL,hL,eR,hR) is the normalised sum of (eR x hL - eL x hR)_x over the two end planes and does not modify the arrays passed to it.",
  "every field pair",
  "All fields; aliasing.",
  ["meanas/fdfd/bloch.py:inner_product", "meanas/fdfd/bloch.py:trq"])
p("C63", "Far field is confined to the light cone",
  "near_to_farfield returns zero for every (kx, ky) at or beyond the light cone and transverse E, H obeying the plane-wave relation H_far = (-E_phi, E_theta) everywhere.",
  "every near field, spacing and padded size",
  "All fields.",
  ["meanas/fdfd/farfield.py:near_to_farfield"])
p("C64", "Near-to-far and back is the identity on propagating fields",
  "For propagating plane-wave spectra, far_to_nearfield recovers the near-field spectrum from near_to_farfield's output; the returned dkx, dky are the angular-spectrum spacings and reproduce dx, dy.",
  "every near field and grid, including non-square grids and grids reaching beyond the light cone",
  "All fields and shapes.",
  ["meanas/fdfd/farfield.py:near_to_farfield", "meanas/fdfd/farfield.py:far_to_nearfield"])
p("C65", "Eigensolver results are consistent",
  "power_iteration returns a unit vector together with its Rayleigh quotient and leaves exact eigenvectors unchanged; rayleigh_quotient_iteration returns a unit vector, and when it stops early the returned pair has residual below the tolerance; the returned eigenvalue is the Rayleigh quotient of the returned vector.",
  "every matrix, guess, iteration count and inner solver",
  "All matrices and iteration counts.",
  ["meanas/eigensolvers.py:power_iteration", "meanas/eigensolvers.py:rayleigh_quotient_iteration"])
p("C66", "signed_eigensolve finds the largest eigenvalues",
  "For a real spectrum and an exact estimate of the spectral radius, choosing the largest-magnitude eigenvalues of the shifted operator chooses the algebraically largest eigenvalues (and, with negative=True, the smallest).",
  "every real spectrum, every how_many",
  "All spectra.",
  ["meanas/eigensolvers.py:signed_eigensolve"])
p("C67", "Ricker pulse respects turn_on at step 0",
  "The amplitude of ricker_pulse at time step 0 is at most turn_on in magnitude, as documented ('Max allowable amplitude at t=0').",
  "every wavelength, time step, turn_on in (0,1), every root the root finder may return",
  "The root finder's result and the rounding to whole periods interact for every real parameter.",
  ["meanas/fdtd/misc.py:ricker_pulse"])
p("C68", "The two SCPML constructors agree on a unit grid",
  "stretch_with_scpml applied to both sides of a grid of unit cells gives the grid that uniform_grid_scpml returns for the same thickness, omega and profile.",
  "every number of cells, thickness, omega and profile",
  "All thicknesses and profiles; numerical tests of the two functions never compare them.",
  ["meanas/fdfd/scpml.py:uniform_grid_scpml", "meanas/fdfd/scpml.py:stretch_with_scpml"])
p("C69", "inner_product separates different modes",
  "waveguide_2d.inner_product (conj_h=False) of the E field of one mode and the H field of another mode of the same cross-section is zero when their beta^2 differ, so that it can be used to expand fields in modes.",
  "every pair of modes of every waveguide on every real grid, including non-uniform grids",
  "All media, grids and mode pairs; the weights of the sum only matter on non-uniform grids.",
  ["meanas/fdfd/waveguide_2d.py:inner_product", "meanas/fdfd/eme.py:get_tr"])

p("C70", "solve_mode forwards its arguments",
  "solve_mode(m, *args, **kwargs) of waveguide_2d and of waveguide_cyl returns the single mode that solve_modes([m], ...) finds for the same remaining arguments, whether these are given positionally or by keyword.",
  "every mode number, every way of splitting the arguments into positional and keyword ones",
  "The calling conventions form an unbounded family of argument splittings; tests try the one their author uses.",
  ["meanas/fdfd/waveguide_2d.py:solve_mode", "meanas/fdfd/waveguide_2d.py:solve_modes", "meanas/fdfd/waveguide_cyl.py:solve_mode", "meanas/fdfd/waveguide_cyl.py:solve_modes"])

p("C71", "Power iteration converges to the dominant eigenvalue",
  "For a guess that is a combination of eigenvectors with a component along one whose eigenvalue strictly dominates in magnitude, the eigenvalue estimate of power_iteration tends to that eigenvalue as the number of iterations grows.",
  "every matrix, every such guess, limit over all iteration counts",
  "A limit statement over all matrices cannot be sampled.",
  ["meanas/eigensolvers.py:power_iteration"])

p("C72", "Bend radii follow the grid",
  "The radii from which dxes2T builds its scale factors step by exactly the cell widths that the difference operators divide by (so that the discrete derivative of r is 1), and the radii of the two kinds of points are half a cell apart.",
  "every grid, including non-uniform ones, and every rmin",
  "All grids; on uniform grids, which tests use, an off-by-one in the widths is invisible.",
  ["meanas/fdfd/waveguide_cyl.py:dxes2T"])

p("C73", "Bent modes are normalised to unit power",
  "waveguide_cyl.normalized_fields_e returns a common multiple of the reconstructed electric field and of the negated e2h field (the physical H) whose (straight) Poynting integral has real part 1, independent of the scale of e_xy.",
  "every bent mode, grid, medium, prop_phase for which it does not raise",
  "All fields and grids.",
  ["meanas/fdfd/waveguide_cyl.py:normalized_fields_e"])

p("C74", "Bent solve_modes returns the requested angular wavenumbers",
  "waveguide_cyl.solve_modes returns normalised eigenvectors of cylindrical_operator with the requested ranks and angular wavenumbers satisfying (angular_wavenumber / rmin)**2 = eigenvalue, also for evanescent modes.",
  "every lossless bend, list of mode numbers and eigensolver meeting its contract",
  "All bends and spectra.",
  ["meanas/fdfd/waveguide_cyl.py:solve_modes"])

p("C75", "The Bloch operator is the curl-curl operator",
  "The magnetic field that hmn_2_hxyz gives for maxwell_operator(h) has as plane-wave components k x F[1/epsilon * F^-1[k x H_k]], where H_k are the components of the field that hmn_2_hxyz gives for h: the operator is minus curl(1/epsilon curl H).",
  "every lattice, Bloch vector, grid, nonvanishing epsilon and coefficient vector",
  "All lattices, epsilon distributions and coefficients; tests of eigenvalues do not see the polarisation frame.",
  ["meanas/fdfd/bloch.py:maxwell_operator", "meanas/fdfd/bloch.py:hmn_2_hxyz", "meanas/fdfd/bloch.py:generate_kmn"])

p("C76", "trq of a field with itself is full transmission",
  "trq with an output field equal to the input field (separate arrays) returns zero reflection and a transmission of magnitude 1.",
  "every field with nonzero flux along x",
  "All fields; the assertions inside compare complex numbers that depend on square-root branches of repeated in-place scalings.",
  ["meanas/fdfd/bloch.py:trq", "meanas/fdfd/bloch.py:inner_product"])

p("C77", "eigsolve descends on its objective",
  "The function that eigsolve hands to the scalar minimiser is, at every angle, the documented objective trace(Z^H A Z (Z^H Z)^-1) of the block it will move to, and a pass of the loop does not increase the objective when the minimiser does no worse than standing still. Hence a run that converges from independent trial vectors returns eigenvalues whose sum is in magnitude at most the objective of the guess.",
  "every Hermitian operator, preconditioner, block, direction and angle",
  "The identity between the expanded form and the objective is over all matrices and angles.",
  ["meanas/fdfd/bloch.py:eigsolve", "meanas/fdfd/bloch.py:_rtrace_AtB", "meanas/fdfd/bloch.py:_symmetrize"])

p("C78", "eigsolve returns Ritz pairs",
  "eigsolve returns unit vectors and eigenvalues sorted by magnitude, each eigenvalue the Rayleigh quotient of its vector, with residuals orthogonal to the search space; they are real and not positive for real positive epsilon, and exact eigenpairs if the search space is invariant.",
  "every operator, guess, tolerance and number of iterations, whether or not the iteration converges",
  "All operators and iteration histories, including runs that hit max_iters.",
  ["meanas/fdfd/bloch.py:eigsolve"])

p("C79", "find_k returns a Bloch vector and its frequency",
  "find_k returns the Bloch vector found along the given direction and the frequency there.",
  "every structure, direction and frequency",
  "The failure does not depend on the structure, and reaching it needs a full eigenvalue search.",
  ["meanas/fdfd/bloch.py:find_k"])

p("C80", "The far field keeps outgoing waves and drops incoming ones",
  "If the near-field spectrum at a sample inside the light cone is that of an outgoing plane wave, the E and H that near_to_farfield returns there are the components of the wave's E and H along the unit vectors of the returned angles phi and theta, times 2 cos(phi); for an incoming plane wave they vanish.",
  "every near field, spacing, sample and polarisation, without padding",
  "All fields, directions and polarisations.",
  ["meanas/fdfd/farfield.py:near_to_farfield"])

p("C81", "The far field is the radiation of the near field",
  "near_to_farfield returns inside the light cone the radiation vectors (Fourier integrals over the near-field plane, from one common origin) of the equivalent surface currents of the near field, whatever the padded size.",
  "every near field, spacing and padded size not smaller than the field",
  "Interpolated samples of padded spectra have no direct counterpart in a test on the unpadded grid.",
  ["meanas/fdfd/farfield.py:near_to_farfield"])

p("C82", "Frequency-domain reciprocity",
  "For two currents, the volume-weighted sum of J2*E1 equals that of J1*E2, where E1, E2 are the fields that solve e_full E = -i omega J (and that solvers.generic returns with an exact matrix solver); the same holds for magnetic currents and h_full.",
  "every grid including complex PML widths, medium, frequency, pair of currents and PEC/PMC mask",
  "An identity over all pairs of sources and media; a test can only compare a few solves.",
  ["meanas/fdfd/operators.py:e_full", "meanas/fdfd/operators.py:h_full", "meanas/fdfd/solvers.py:generic"])

p("C83", "Lossy systems are uniquely solvable and absorb the delivered power",
  "On a real grid with real mu, the power delivered by the current is what Im(epsilon) absorbs; if Im(omega^2 epsilon) has one strict sign, e_full E = -i omega J has exactly one solution (without PEC cells; with them the field outside is unique), generic returns it with an exact matrix solver, and its weighted norm is bounded by that of J over |omega| delta when |Im epsilon| >= delta.",
  "every real positive grid, medium, current and PMC mask",
  "Solvability for every medium and grid size is not observable from finitely many solves.",
  ["meanas/fdfd/operators.py:e_full", "meanas/fdfd/solvers.py:generic"])

p("C84", "Scale invariance",
  "Multiplying all cell widths by s and dividing omega by s (FDTD: multiplying dt by s) multiplies e_full and h_full by 1/s^2 and leaves e2h, m2j and every FDTD run unchanged, so solutions correspond.",
  "every nonzero factor, grid, medium, mask, field and sequence of FDTD operations",
  "All factors, grids and media at once.",
  ["meanas/fdfd/operators.py:e_full", "meanas/fdfd/operators.py:h_full", "meanas/fdfd/operators.py:e2h", "meanas/fdfd/operators.py:m2j", "meanas/fdtd/base.py:maxwell_e", "meanas/fdtd/base.py:maxwell_h"])

p("C85", "Single-cell axes give 2D and 1D simulations",
  "Along an axis with one cell all differences vanish, its cell widths have no effect on e_full and on FDTD runs, and the two polarisations separate: a field along that axis obeys the scalar wave equation, one without that component stays without it.",
  "every grid with a single-cell axis, medium, field and width",
  "All media, fields and widths.",
  ["meanas/fdmath/functional.py:deriv_forward", "meanas/fdfd/operators.py:e_full", "meanas/fdfd/operators.py:e2h", "meanas/fdtd/base.py:maxwell_e"])

p("C86", "FDFD is invariant under periodic translation",
  "Moving cell widths, materials, PEC/PMC masks and field by whole cells around the periodic domain moves e_full E and e2h E by the same amount.",
  "every shift, axis, grid, medium, mask and field",
  "All shifts, nonuniform grids and fields.",
  ["meanas/fdfd/operators.py:e_full", "meanas/fdfd/operators.py:e2h"])

p("C87", "gaussian_beam samples the paraxial gaussian beam",
  "Off the waist plane gaussian_beam returns one fixed multiple of the paraxial gaussian beam with the given waist, wavelength, centre and tilt about y; that beam solves the paraxial Helmholtz equation and its intensity falls to e^-2 at w(z) = w0 sqrt(1 + (z/z_R)^2).",
  "every grid whose middle row misses the waist plane, centre, tilt, waist and wavelength",
  "The differential equation and the closed form concern all points and parameters.",
  ["meanas/fdtd/misc.py:gaussian_beam"])

p("C88", "ln_R_per_layer is the designed attenuation",
  "Without cfs_alpha the parameters returned by cpml_params at each cell of the layer are those of a conductivity S (x/thickness)^m and of a stretch running from 1 to sqrt(epsilon_eff mu_eff) at the depth x of the E and H samples, and S is such that crossing the layer and back attenuates by exp(ln_R_per_layer) per cell.",
  "every admissible argument set, axis length and cell",
  "The integral over the profile and all real exponents are not testable pointwise.",
  ["meanas/fdtd/pml.py:cpml_params"])

p("C89", "Magnetic materials in the Bloch solver",
  "maxwell_operator (hence eigsolve) accepts a mu of shape (3, *grid) and applies the operator curl mu^-1 curl to vectors of size 2 * grid size. At the pinned commit it raises a ValueError for every nonempty grid and every mu. inverse_maxwell_operator_approx with mu = 1 agrees with the operator without mu; at the pinned commit it returns zero on a grid of one cell.",
  "every nonempty grid shape and every shape of mu",
  "A test shows one failing shape; whether some shape works needs all of them.",
  ["meanas/fdfd/bloch.py:maxwell_operator", "meanas/fdfd/bloch.py:inverse_maxwell_operator_approx"])
p("C90", "Renaming the axes",
  "Exchanging the axes of the grid, the materials, the conductor masks, the sources and the fields, H taking the sign of the permutation, exchanges those of the results of e_full, e2h and of any FDTD run: no axis is treated specially.",
  "every permutation, grid, material, mask, frequency, field and sequence of updates",
  "All permutations, grids and inputs; a sign or index slip in one component shows only for particular fields.",
  ["meanas/fdfd/operators.py:e_full", "meanas/fdfd/operators.py:e2h", "meanas/fdtd/base.py:maxwell_e", "meanas/fdtd/base.py:maxwell_h", "meanas/fdmath/functional.py:curl_forward", "meanas/fdmath/functional.py:curl_back"])
p("C91", "Mirror symmetry",
  "Mirroring the grid, the materials, the masks, the sources and the fields about a lattice plane (E a vector, H a pseudovector, half-cell offsets of the Yee grid respected) mirrors the results of e_full, e2h and of any FDTD run; in a mirror-symmetric structure symmetric or antisymmetric fields and sources keep their symmetry for ever.",
  "every axis, grid, material, mask, frequency, field and sequence of updates",
  "All grids and inputs; an offset error of half a cell shows only on particular data.",
  ["meanas/fdfd/operators.py:e_full", "meanas/fdfd/operators.py:e2h", "meanas/fdtd/base.py:maxwell_e", "meanas/fdtd/base.py:maxwell_h"])

p("C92", "The stability bound is sharp",
  "On a uniform grid with an even number of cells along each axis and uniform real materials every source-free run stays bounded if and only if dt^2 (1/dx^2 + 1/dy^2 + 1/dz^2) < epsilon mu: above the bound some field grows geometrically, alternating in sign at every step, and at the bound some field grows linearly.",
  "every uniform grid with even axes, spacing, material and dt",
  "Boundedness for all fields and all times, and its failure just beyond the bound, is out of reach of finite runs.",
  ["meanas/fdtd/base.py:maxwell_e", "meanas/fdtd/base.py:maxwell_h", "meanas/fdtd/__init__.py"])
p("C93", "Radiated power equals the power through the near-field plane",
  "Without padding, if the spectrum of the near field consists of forward travelling waves inside the light cone and of evanescent waves beyond it, the sum over the far-field samples of (|E_theta|^2 + |E_phi|^2) / (4 cos(phi)) equals the number of samples times the sum over the near-field cells of Re(E_x H_y* - E_y H_x*).",
  "every grid, spacing and near field of such waves",
  "A sum rule over all samples for all fields; the evanescent part must drop out exactly.",
  ["meanas/fdfd/farfield.py:near_to_farfield"])

p("C94", "waveguide_3d.solve_mode end to end",
  "For a lossless waveguide that is uniform along the propagation axis, whose cross-section operator has real eigenvalues not larger than the power iteration's estimate, solve_mode (slicing, 2D solve, normalisation, rotation back to 3D and wavenumber correction) works on the mode of the requested eigenvalue: wavenumber_2d is its positive root, 2/dx sin(wavenumber dx / 2) = wavenumber_2d, and for polarity +1 expand_e of the returned field satisfies the source-free 3D wave equation in every cell away from the periodic seam. It never returns NaN.",
  "every grid, axis, slice, lossless material, frequency and mode number; ARPACK returning the eigenpairs it promises",
  "Five functions have to agree on axes, signs and half-cell phases for every orientation and grid.",
  ["meanas/fdfd/waveguide_3d.py:solve_mode", "meanas/fdfd/waveguide_3d.py:expand_e", "meanas/fdfd/waveguide_2d.py:solve_modes", "meanas/fdfd/operators.py:e_full"])
p("C95", "Calls leave their arguments alone",
  "stretch_with_scpml, power_iteration, rayleigh_quotient_iteration and bloch.eigsolve do not modify the grids and vectors they are given. At the pinned commit stretch_with_scpml stores the stretched widths into the caller's lists and returns the same object, and rayleigh_quotient_iteration (power_iteration with iterations=0) rescales the caller's guess to unit length; eigsolve leaves its final block of trial vectors in the array given as y0.",
  "every grid, operator, guess and option",
  "An overwritten argument shows only when the caller uses it again.",
  ["meanas/fdfd/scpml.py:stretch_with_scpml", "meanas/eigensolvers.py:power_iteration", "meanas/eigensolvers.py:rayleigh_quotient_iteration", "meanas/fdfd/bloch.py:eigsolve"])
p("C96", "Mode attenuation equals absorption",
  "For the fields reconstructed from an eigenvector of waveguide_2d.operator_e at real omega, 2 Im(beta) Re(P) = omega * integral of (Im(eps)|E|^2 + Im(mu)|H|^2), P being the power of E x H* through the cross-section. A mode with real beta stores equal electric and magnetic energy; a lossless waveguide has a real beta whenever Re(P) is not 0; in a passive one a mode that carries power forwards decays forwards. For normalized_fields_e on a grid with equal E and H widths Re(P) = 2.",
  "every real grid, complex material, real frequency and mode",
  "An identity between the eigenvalue and integrals of the fields for all media and grids.",
  ["meanas/fdfd/waveguide_2d.py:operator_e", "meanas/fdfd/waveguide_2d.py:exy2e", "meanas/fdfd/waveguide_2d.py:exy2h", "meanas/fdfd/waveguide_2d.py:normalized_fields_e"])
p("C97", "Group velocity is the energy velocity",
  "Along every continuous branch of eigenpairs of waveguide_2d.operator_e of a lossless waveguide, beta is differentiable in omega with d(beta)/d(omega) = integral of (eps|E|^2 + mu|H|^2) / (2 Re(P)), computed from the fields of exy2e and exy2h; for normalized_fields_e on a grid with equal E and H widths it is a quarter of the integral.",
  "every real grid, real material, frequency and continuous branch carrying power",
  "A derivative for all waveguides; finite differences only approximate it.",
  ["meanas/fdfd/waveguide_2d.py:operator_e", "meanas/fdfd/waveguide_2d.py:exy2e", "meanas/fdfd/waveguide_2d.py:exy2h", "meanas/fdfd/waveguide_2d.py:normalized_fields_e"])
p("C98", "The effective index is bounded by the material",
  "Every real wavenumber beta obtained from an eigenvalue of waveguide_2d.operator_e with uniform mu > 0 and real eps > 0 satisfies beta^2 <= omega^2 mu max(eps), however coarse or non-uniform the grid is.",
  "every real grid with positive widths, material, frequency and eigenvector",
  "A bound over all spectra; spurious modes beyond it would be mistaken for guided ones.",
  ["meanas/fdfd/waveguide_2d.py:operator_e"])

p("C99", "eigsolve uses the guess it is given",
  "If the trial vectors given as y0 are linearly independent, eigsolve starts from their span: at most two passes of the initial loop, no random numbers enter, and the result is a function of the arguments. The starting block has norm num_modes and is not nearly dependent. A linearly dependent guess (not all zero) is replaced by fresh random blocks, one per pass, until one is independent, and eigsolve starts from the span of that block. With more modes than unknowns eigsolve never returns.",
  "every guess, every sequence of random numbers, every operator and number of modes",
  "The random redraws and the number of passes are not under the control of a test; termination is a statement about all of them.",
  ["meanas/fdfd/bloch.py:eigsolve"])

p("C100", "Power balance of any closed surface",
  "For the solution of e_full E = -i omega J with H = e2h E (or of eh_full with electric and magnetic currents), the complex Poynting vector E x H* leaving any set of cells through its surface equals the complex power of the currents inside minus the power taken by the media inside, with Yee volumes. At a real frequency its real part is the power delivered plus omega times the integral of Im(eps)|E|^2 + Im(mu)|H|^2, so two surfaces around the same sources measure the same power if there is no loss between them.",
  "every real grid, complex frequency and medium, current, and set of cells",
  "All fields and all regions; the index conventions of the staggered fluxes cancel on inner faces only if every one of them is right.",
  ["meanas/fdfd/functional.py:poynting_e_cross_h", "meanas/fdfd/operators.py:e_full", "meanas/fdfd/operators.py:eh_full", "meanas/fdfd/operators.py:e2h"])

p("C101", "In steady state the CPML is a complex-stretched grid",
  "A time-harmonic state of a simulation with the functions of updates_with_cpml (including their auxiliary fields) exists exactly if E solves the FDFD equation at the discrete frequency on the grid whose widths (dxes[1], see C20) are multiplied, inside the layers, by 1 / (p2 (1 + p1 / (1 - p0 exp(-i omega dt)))). For layers made by cpml_params this factor is regular, has a positive real part and the imaginary part of an absorber; without cfs_alpha it is kappa ((1 + p0) - i (1 - p0) cot(omega dt / 2)) / (2 p0).",
  "every grid, medium, current, set of disjoint layers and frequency",
  "The statement is about runs of any length and all fields, and compares the time-domain with the frequency-domain half of the package.",
  ["meanas/fdtd/pml.py:updates_with_cpml", "meanas/fdtd/pml.py:cpml_params", "meanas/fdfd/operators.py:e_full", "meanas/fdfd/operators.py:e2h"])

p("C102", "Backward modes and time reversal of waveguide modes",
  "Reconstructing the full fields of a transverse mode with the wavenumber -beta instead of beta (exy2e, exy2h) reverses E_z, H_x and H_y and changes nothing else; both sets of fields are modes, one for each direction. normalized_fields_e accepts at most one of the two: if it normalises the mode with beta, it raises with -beta. For real media, widths and frequency the conjugate of an eigenvector of operator_e belongs to the conjugate wavenumber, and a mode with real beta that is not degenerate has, up to one phase, real transverse and imaginary longitudinal components.",
  "every cross-section, medium, frequency, wavenumber and eigenvector",
  "A test sees the fields of single modes; the sign rules hold for all of them, and the choice of direction is decided by a global integral.",
  ["meanas/fdfd/waveguide_2d.py:exy2e", "meanas/fdfd/waveguide_2d.py:exy2h", "meanas/fdfd/waveguide_2d.py:normalized_fields_e", "meanas/fdfd/waveguide_2d.py:operator_e", "meanas/fdfd/waveguide_2d.py:inner_product"])

p("C103", "Adjoint gradient of an FDFD measurement from two ordinary solutions",
  "If a linear measurement of the field, the volume-weighted sum of J' E over the grid, is used as a current and solved for with the same system (no transposed solver is needed), its field E' gives the derivative of the measurement with respect to the permittivity and permeability of every cell: i omega (V_E eps' E' E - V_H mu' H' H). With E' taken in the changed medium the formula is exact for changes of any size, and it holds with PML widths and PEC/PMC masks.",
  "every grid (also complex-stretched), medium, frequency, current, measurement and change of the media",
  "Statement about the inverse of a matrix of any size under any perturbation; finite differences in a test check single directions approximately.",
  ["meanas/fdfd/operators.py:e_full", "meanas/fdfd/operators.py:e2h", "meanas/fdfd/solvers.py:generic"])

p("C104", "Second-order consistency of the difference operators and of the FDTD updates",
  "On a uniform periodic grid the forward and backward differences of a sampled smooth function agree with its derivative halfway between the samples up to M h^2 / 24 (M bounds the third derivative), and the curls take samples on one half of the Yee grid to samples of the curl on the other half with an error of M (ha^2 + hb^2) / 24. One E or H update started from samples of a smooth solution of Maxwell's equations, with currents added at the middle of the step, gives the samples one step later up to dt (Mt dt^2 + Mx (ha^2 + hb^2) / eps) / 24.",
  "every uniform grid, every three times differentiable periodic field and every solution of Maxwell's equations with any media and currents",
  "Tests can watch errors shrink for chosen fields; the bound is for all smooth fields and all grids, including the cells at the wrap-around.",
  ["meanas/fdmath/functional.py:deriv_forward", "meanas/fdmath/functional.py:deriv_back", "meanas/fdmath/functional.py:curl_forward", "meanas/fdmath/functional.py:curl_back", "meanas/fdtd/base.py:maxwell_e", "meanas/fdtd/base.py:maxwell_h"])

p("C105", "FDTD runs converge to the solutions of Maxwell's equations",
  "For a smooth solution of Maxwell's equations in a periodic box (any smooth media between two positive bounds, any electric and magnetic currents), a final time and a margin from the documented time-step bound there is one constant C such that on every uniform grid of the box a simulation started from samples of the solution stays within C (dt^2 + dx^2 + dy^2 + dz^2) of it up to that time (energy norm). More generally perturbations of any kind added to the fields in each step are amplified by at most sqrt(6 / (1 - q)) in total, on any grid, q the squared ratio of time step and bound.",
  "every smooth solution, box, medium, current, final time, grid size and number of steps",
  "Convergence is a statement about the limit of ever finer grids; a test sees finitely many of them and one solution.",
  ["meanas/fdtd/base.py:maxwell_e", "meanas/fdtd/base.py:maxwell_h", "meanas/fdmath/functional.py:curl_forward", "meanas/fdmath/functional.py:curl_back"])

p("C106", "FDFD solutions converge to the time-harmonic solutions of Maxwell's equations",
  "For a smooth periodic solution of the time-harmonic Maxwell equations in a lossy medium there is one constant C such that on every uniform grid of the box the field returned by the FDFD solver for the sampled media and current is within C (dx^2 + dy^2 + dz^2) of the solution (volume-weighted norm), and so is the H field given by e2h. The underlying bound holds on every grid with real widths: the field of any electric and magnetic currents, and its curl, are bounded by the currents with a constant given by the frequency and the media only.",
  "every smooth solution, box, lossy medium, frequency and grid size, and any matrix solver that solves its system",
  "Statement about the limit of ever finer grids and about inverses of matrices of any size.",
  ["meanas/fdfd/operators.py:e_full", "meanas/fdfd/operators.py:e2h", "meanas/fdfd/operators.py:m2j", "meanas/fdfd/solvers.py:generic"])

p("C107", "Energy balance of any region over a whole FDTD run",
  "For any set of cells and any number of steps of a run with injected electric and magnetic currents, the energy in the set (the energy_hstep values where both lattices have the same widths, the Yee-volume energy on every grid) is the initial energy, minus dt times what poynting gives on the faces of the surface of the set in all half steps, plus the work of the currents inside. Flux through inner faces never appears, and two surfaces around the same sources differ by the energy stored between them.",
  "every set of cells (any shape, also across the periodic boundary), every grid, medium, time step, current, initial field and number of steps",
  "All shapes of surface and all run lengths; a test picks a box and a few steps.",
  ["meanas/fdtd/energy.py:poynting", "meanas/fdtd/energy.py:poynting_divergence", "meanas/fdtd/energy.py:energy_hstep", "meanas/fdtd/energy.py:delta_energy_j", "meanas/fdtd/base.py:maxwell_e", "meanas/fdtd/base.py:maxwell_h"])

p("C108", "Negative frequencies and time reversal of FDFD solutions",
  "Conjugating frequency (with or without sign change), cell widths and media conjugates e_full and, up to that sign, e2h; so the solution at -omega on the grid uniform_grid_scpml makes for -omega, with conjugate media and currents, is the conjugate of the solution at omega (fields and H), i.e. both belong to one real signal. In lossless media on a real grid, conj(E), -conj(H) is the field of the currents -conj(J), and if the solution is unique, in-phase currents drive E in quadrature and H in phase.",
  "every complex frequency, complex grid, medium, PEC/PMC mask, field and current; every thickness and profile of the SCPML",
  "Relates two problems for all inputs, including complex-stretched grids.",
  ["meanas/fdfd/operators.py:e_full", "meanas/fdfd/operators.py:e2h", "meanas/fdfd/scpml.py:uniform_grid_scpml"])

p("C109", "Bands are symmetric under reversal of the Bloch vector",
  "In a lossless medium the Bloch modes at -k0 are the time-reversed modes at k0: a frequency is a band at -k0 exactly if it is one at k0, and the fields that hmn_2_exyz and hmn_2_hxyz give for the reversed mode are the conjugate of E and minus the conjugate of H.",
  "for all grids, reciprocal lattices, Bloch vectors, media and modes",
  "A test computes a band diagram on one grid; whether the symmetry survives the truncation of the plane waves depends on the parity of the number of cells.",
  ["meanas/fdfd/bloch.py:generate_kmn", "meanas/fdfd/bloch.py:maxwell_operator", "meanas/fdfd/bloch.py:hmn_2_exyz", "meanas/fdfd/bloch.py:hmn_2_hxyz"])

p("C110", "Bloch bands do not depend on the origin and scale with the medium and the lattice",
  "Translating epsilon by any number of cells along any axis leaves the bands of maxwell_operator unchanged and translates the E and H fields of the modes; multiplying epsilon by t divides the eigenvalues by t; multiplying the reciprocal lattice by t multiplies them by t squared, with the same modes.",
  "for all grids, lattices, Bloch vectors, media, modes, translations and factors",
  "Translations and scalings form infinite families; a wrong phase or weight can cancel for one symmetric unit cell.",
  ["meanas/fdfd/bloch.py:generate_kmn", "meanas/fdfd/bloch.py:maxwell_operator", "meanas/fdfd/bloch.py:hmn_2_exyz", "meanas/fdfd/bloch.py:hmn_2_hxyz"])

p("C111", "Adding dielectric lowers every Bloch band",
  "If epsilon <= t epsilon' at every point, the j-th squared frequency of maxwell_operator with epsilon' is at most t times the j-th one with epsilon, for every j, counted with multiplicity. Media that agree up to a factor t have bands that agree up to the factor t.",
  "for all grids, lattices, Bloch vectors without a grid wave vector along y, all pairs of real positive media, all factors and all bands",
  "A comparison of all pairs of media and all bands at once; tests can compare a few.",
  ["meanas/fdfd/bloch.py:maxwell_operator"])

p("C112", "Frequencies returned by eigsolve lie above the true bands, and within the logged residual of one",
  "When eigsolve stops by its convergence test, the j-th squared frequency it returns is at least the j-th lowest band of the operator, and for every returned mode the operator has an exact eigenvalue no further away than the norm of the residual A v - (v* A v) v that the code logs as eigness.",
  "for all grids, lattices, Bloch vectors without a grid wave vector along y, real positive media, guesses, tolerances and iteration limits, all line searches, and all runs that stop by the convergence test",
  "Concerns all media and all intermediate states of an iteration; the exact bands are not known to a test.",
  ["meanas/fdfd/bloch.py:eigsolve", "meanas/fdfd/bloch.py:maxwell_operator"])

p("C113", "Slope of a Bloch band = energy velocity of its mode",
  "The slope of the frequency sqrt(-eigenvalue) of a band of `maxwell_operator` along any direction of Bloch vectors equals the flux of E x conj(H) of the fields returned by `hmn_2_exyz` and `hmn_2_hxyz` over the unit cell, divided by the stored energy; and for two modes at different Bloch vectors the difference of the eigenvalues is given exactly by the mixed fluxes.",
  "for all grids, lattices, positive real epsilon, Bloch vectors and directions, and all bands whose magnetic field varies continuously",
  "a numerical slope has discretisation error and any agreement on a few structures says nothing about other lattices, materials or directions",
  ["meanas/fdfd/bloch.py:generate_kmn", "meanas/fdfd/bloch.py:maxwell_operator", "meanas/fdfd/bloch.py:hmn_2_exyz", "meanas/fdfd/bloch.py:hmn_2_hxyz"])

p("C114", "EME interfaces are reciprocal and match the tangential fields",
  "For mode lists normalised to the same (unconjugated) overlap, the transmission `get_tr` returns from right to left is the transpose of the one from left to right, including the clipping of singular values above 1. If transmitted and reflected amplitudes exist that make the transverse E and H of both sides agree, `get_tr` returns exactly those amplitudes (when they show no gain, which is automatic for real orthonormal modes, where transmitted and reflected power add up to the incident power).",
  "for all cross-sections, grids and numbers of modes, all mode lists meeting the stated normalisation, and every linear algebra library meeting its contract",
  "tests check a few interfaces; reciprocity must hold for every pair of cross-sections and for every choice of singular vectors the library makes",
  ["meanas/fdfd/eme.py:get_tr", "meanas/fdfd/waveguide_2d.py:inner_product"])

p("C115", "The Fourier transform of an FDTD run is the FDFD solution",
  "Record the fields of a script that alternates maxwell_h and maxwell_e with injected electric and magnetic currents, and transform the records with the weights dt*exp(-i w t) (E and M at whole steps, H and J at half steps). For every run, every complex frequency w and every number of steps the transforms satisfy the FDFD system e_full E = -i W (J + m2j M), H = e2h E + M/(-i W mu) at W = 2 sin(w dt/2)/dt, up to a remainder containing only the first and last fields; a run that starts and ends at rest gives an exact FDFD solution. For real media below the Courant limit, zero initial fields, currents that stop, and Im w < 0, the infinite transforms converge, e_full at W has no null vector, and the transform of E is the one and only solution of the FDFD system.",
  "all periodic grids of any size and spacing, all nonzero epsilon and mu, all initial fields, all current records, all numbers of steps, all complex frequencies with W != 0 (finite statement); all lossless systems below the Courant limit and all frequencies with Im w < 0 (limit statement)",
  "a test compares one simulation with one solve to a tolerance that hides the remainder; the exact remainder, convergence of the infinite transform and uniqueness of the FDFD solution concern all runs and unbounded times",
  ["meanas/fdtd/base.py: maxwell_e, maxwell_h", "meanas/fdfd/operators.py: e_full, e2h, m2j", "meanas/fdfd/__init__.py: documentation of the discrete frequency"])

p("C116", "Time-domain reciprocity of FDTD runs",
  "Run maxwell_h/maxwell_e from rest twice on the same grid with different electric and magnetic currents. At every step N the volume-weighted convolution sum_n E1(N-n).J2(n) - H1(N-n+1/2).M2(n) equals the same expression with the two runs exchanged. In particular source and receiver can be exchanged: the E component recorded at one edge of the grid while a point current (moment p(n), density p(n)/volume) drives another edge equals, sample by sample, what the second edge records when the first is driven; an electric source seen by a magnetic receiver is minus the magnetic source seen by the electric receiver.",
  "all periodic grids of any size and spacing, all nonzero epsilon and mu (also complex), all time steps, all current records, all pairs of positions and components, all numbers of steps",
  "a test exchanges one source-receiver pair for one pulse; the identity holds for all pairs, all pulses and all (unbounded) times, and depends on the E and H updates being adjoint in the volume weights, which an error in one of the cell widths breaks only on non-uniform grids",
  ["meanas/fdtd/base.py: maxwell_e, maxwell_h", "meanas/fdmath/functional.py: curl_forward, curl_back"])

p("C117", "Waves on the grid travel at the speed of light, never faster",
  "On a uniform grid and in a uniform lossless medium, a transverse plane wave with real wave vector k in the Brillouin zone (|k_a d_a| <= pi) has, below the Courant limit of the axes along which it varies, exactly one frequency 0 < w <= pi/dt at which maxwell_h/maxwell_e carry it unchanged except for the phase exp(-i w dt) per step, and (1 - theta^2/24) |k|/sqrt(eps mu) <= w <= |k|/sqrt(eps mu), theta the largest phase advance per cell: numerical waves never run ahead of the light and lag by at most theta^2/24. Along one axis with dt = d sqrt(eps mu) (magic time step) w is exactly |k|/sqrt(eps mu). With that time step pulses of any shape move exactly one cell per step, also through widths and media that vary from cell to cell at constant impedance. A plane wave that solves the FDFD equation at frequency w obeys the same two bounds.",
  "all grid sizes and cell widths, all positive eps and mu, all time steps below the Courant limit, all wave vectors that fit the grid, all polarisations, all frequencies",
  "a test measures the velocity of a few waves on a few grids to a tolerance; the bounds are analytic inequalities between sines over all wave vectors, directions and time steps",
  ["meanas/fdtd/base.py: maxwell_e, maxwell_h", "meanas/fdfd/operators.py: e_full", "meanas/fdmath/__init__.py: documentation of the discrete dispersion relation"])

p("C118", "Rayleigh quotient iteration never worsens the guess and converges cubically on Hermitian operators",
  "For a Hermitian operator and an exact inner solver: whenever rayleigh_quotient_iteration returns a pair (l, v), v has unit norm, the residual |A v - l v| is at most the residual |A g - m g|/|g| of the guess with any number m, and A has an eigenvalue within |A v - l v| of l. Near an isolated eigenvalue mu (gap gamma and spread s on the orthogonal complement of its eigenvector) a guess whose angle has tangent t with kappa t <= 1, kappa = sqrt(2 s/gamma), leads after n+1 iterations either to a stop at which tolerance bounds the error (angle 2 tol/gamma, eigenvalue s (2 tol/gamma)^2) or to an angle of at most (kappa t)^(3^(n+1))/kappa and an eigenvalue error of at most s ((kappa t)^(3^n)/kappa)^2.",
  "all dimensions, all Hermitian matrices, all guesses, all iteration counts and tolerances, all exact inner solvers",
  "a test runs a few matrices to convergence; monotonicity and the rate concern every matrix, guess and number of iterations, and rounding hides the cubic rate after three steps",
  ["meanas/eigensolvers.py: rayleigh_quotient_iteration"])

p("C119", "The scattering matrix of a lossless interface in eigenmode expansion is symmetric and unitary",
  "For real modes that are orthonormal under inner_product on both sides of an interface and whose tangential fields can be matched for incidence from the left, they can be matched for incidence from the right as well, get_tr returns the matching amplitudes for both directions, and the scattering matrix of the interface is symmetric and unitary: the outgoing power is the incoming power for any incidence from both sides. get_s returns this matrix.",
  "all cross-sections, grids, numbers of modes, real orthonormal mode sets on both sides, incident amplitudes, and numpy.linalg routines that keep their promises",
  "a test checks the power balance for a few interfaces, mostly with a single mode or with modes in matching order, where the exchanged blocks of get_s cannot be seen",
  ["meanas/fdfd/eme.py: get_tr, get_s", "meanas/fdfd/waveguide_2d.py: inner_product"])

p("C120", "The Fourier transform of an FDTD run with CPML is the FDFD solution on the stretched grid",
  "Start fdtd from rest with any currents, using updates_with_cpml with any set of layers. If the discrete-time Fourier transforms of the recorded E and H (taken half a step apart) and of the currents converge at ω and the poles of the layers lie inside of the circle of exp(iω dt), then the transformed E field solves fdfd.operators.e_full at Ω = 2 sin(ω dt/2)/dt on the grid stretched by the layers, with the transformed currents as source, and the transformed H field is e2h of it. For layers made by cpml_params the pole condition holds at every real ω. For bounded currents everything converges at all sufficiently damped frequencies.",
  "all grids, cell sizes, epsilon, mu, layers and their parameters, time steps, currents and frequencies, given convergence",
  "a test compares one simulation at a few frequencies with a tolerance that hides both the reflection of the layers and the truncated recording",
  ["meanas/fdtd/pml.py: cpml_params, updates_with_cpml", "meanas/fdfd/operators.py: e_full, e2h", "meanas/fdfd/scpml.py: stretch_with_scpml"])

p("C121", "Every lossless waveguide has a guided fundamental mode, and adding dielectric raises its index",
  "For real positive epsilon and mu on any real grid: if the fields that hxy2h and hxy2e make from some transverse magnetic field at a wavenumber β₀ > 0 have no more electric than magnetic energy, then operator_e and operator_h have an eigenvalue β² with β ≥ β₀. Hence raising epsilon anywhere never lowers the largest wavenumber, and a non-magnetic cross-section always has a guided mode whose squared effective index is at least the area-weighted harmonic mean of epsilon in either transverse direction; it lies between the lowest and highest epsilon. The first mode of solve_modes is therefore always a propagating one.",
  "all cross-section shapes, real grids (also non-uniform), positive real epsilon (per component) and mu, frequencies and trial fields",
  "a test sees a few waveguides; it cannot exclude a cross-section for which mode 0 comes out evanescent or for which more dielectric lowers the index",
  ["meanas/fdfd/waveguide_2d.py: operator_e, operator_h, hxy2h, hxy2e, solve_modes"])

p("C122", "Group velocity follows the power and never exceeds the speed of light",
  "Along a continuous branch of modes of a lossless, non-dispersive waveguide (positive real materials and widths) the derivative of the wavenumber with respect to the frequency is real, has the sign of the power carried by the mode, and is at least n in magnitude for every n with n^2 <= epsilon*mu in all cells: energy never travels faster than light in the material with the lowest index. Over a finite frequency interval on which the mode carries power forward, beta grows by at least n times the step, so each wavenumber belongs to one frequency.",
  "all cross-sections, widths (also different E and H widths), positive real materials, branches and frequencies",
  "A bound over all structures and all modes, with a derivative with respect to the frequency; a test samples a few frequencies of a few structures.",
  ["meanas/fdfd/waveguide_2d.py: operator_e, exy2e, exy2h"])

p("C123", "Waveguide modes follow translations, mirror images, exchange of axes and scaling of the cross-section",
  "Moving the widths and materials of a cross-section by whole cells, mirroring them along x or y (half-cell offsets of the Yee grid respected), or exchanging x and y moves, mirrors or exchanges operator_e, so the wavenumbers stay the same, and the full fields of exy2e and exy2h change along, H as an axial vector. Enlarging the cross-section by s and dividing omega by s divides every wavenumber by s and leaves exy2e and exy2h as they are. In a mirror-symmetric cross-section a mode that is not degenerate is even or odd.",
  "all shapes, complex widths and materials, with or without mu, all frequencies, wavenumbers, offsets and scale factors",
  "Equalities for all structures; a test compares a few pairs of structures with the tolerance of the sparse eigensolver, and cannot tell a half-cell error from discretisation error.",
  ["meanas/fdfd/waveguide_2d.py: operator_e, exy2e, exy2h, e2h, curl_e"])

p("C124", "Resonances of a cavity: finite, real without loss, orthogonal, complete, lowered by added material",
  "Call omega a resonance of a simulation (grid, epsilon, mu, pec, pmc) if e_full(omega, ...) has a non-zero source-free field that vanishes in the electric conductor. There are finitely many resonances, whatever the (possibly complex, PML-stretched) widths and media. Off resonance every current outside the conductor drives exactly one field, and generic with an exact matrix solver returns it; at a resonance no current drives exactly one field. On a real grid with positive real epsilon and mu: every resonance is real, its square is the ratio of the curl energy to the electric energy of the field, fields of different resonances are orthogonal in the inner product weighted by volume and epsilon, every field vanishing in the conductor is a superposition of resonant fields, and without conductor the number of resonances with multiplicity is the number of field components. If epsilon <= t*epsilon', mu <= mu', the electric conductor shrinks and the magnetic conductor grows, then the changed cavity has at least as many resonances with omega^2 <= t*w as the original one has with omega^2 <= w, for every w.",
  "all grid shapes, all widths (complex for finiteness and solvability, positive for the lossless part), all media, all conductor masks, all frequencies, all currents, all exact solvers, all thresholds w and factors t",
  "A statement about the whole spectrum of an operator of arbitrary size and its monotone dependence on every cell of the medium; a test can look at a few frequencies of a few cavities.",
  ["meanas/fdfd/operators.py:e_full", "meanas/fdfd/solvers.py:generic", "meanas/fdfd/operators.py:e_full_preconditioners"])

p("C125", "FDTD runs ring at the cavity resonances of the frequency-domain operator",
  "Below the documented time-step bound, with real positive permittivity and permeability and no conductors, every resonance w of `fdfd.operators.e_full` on the same grid is real and satisfies |w| dt < 2. There is a complete set of fields resonant in `e_full`, orthonormal with the permittivity and the cell volumes as weight and independent of the initial state, such that the electric field of every source-free run of `maxwell_e` / `maxwell_h` is at every step a superposition of them, each oscillating at its own frequency W with sin(W dt / 2) = w dt / 2. Transforming the recorded field (1/N sum of exp(-i W0 n dt) e_n) converges for every real W0; the limit is a field resonant in `e_full` at 2 sin(W0 dt / 2) / dt, hence zero unless this is a resonance, and its overlap with a resonant field is fixed by the first two samples of the run.",
  "For all grid sizes, positive cell widths, real media bounded below, time steps below the bound, initial states, step counts, cells and frequencies.",
  "Tests run a finite number of steps of one cavity and compare one peak; they cannot show that no other frequencies appear in any run, nor take the limit of infinitely long records.",
  ["meanas/fdtd/base.py: maxwell_e, maxwell_h", "meanas/fdfd/operators.py: e_full"])

p("C126", "Image principle of the conducting boundary",
  "An FDTD run between two walls set by `conducting_boundary(direction, -1)` and `conducting_boundary(direction, +1)`, with the updaters of a field called after each change of this field, equals the part between the walls of a periodic run that also holds the mirror image of the structure, the initial fields and the sources. The walls stand half a cell inside the outer samples and act as mirrors with even tangential E and normal H.",
  "For all shapes with at least three samples along the direction, cell widths, media, time steps, fields, sources and numbers of calls.",
  "The equality concerns runs of any length on any grid; a test compares finitely many runs, and the updaters have no test at all.",
  ["meanas/fdtd/boundaries.py: conducting_boundary", "meanas/fdtd/base.py: maxwell_e, maxwell_h"])

p("C127", "compute_overlap_e is the overlap of the mode orthogonality relation",
  "As the docstring of compute_overlap_e announces, `numpy.sum(overlap_e * other_e.conj())` computes the overlap of the mode orthogonality relation `Integrate(((E x H_mode) + (E_mode x H)) dot dn)`: it is 1 for the mode itself and 0 for its counter-propagating copy and for every other mode of the same cross-section.",
  "For all grids, cross-sections, axes, polarities, slices with two planes available, and pairs of modes.",
  "Orthogonality is a statement about all pairs of modes of all cross-sections; a test sees a few, and on a uniform grid the overlap happens to vanish for many of them.",
  ["meanas/fdfd/waveguide_3d.py: compute_overlap_e, expand_e"])

p("C128", "eigsolve makes progress until the block is invariant",
  "Each pass of the main loop of eigsolve moves the trial block along the preconditioned gradient of the trace it minimises (plus a multiple of the previous direction between resets). The gradient vanishes exactly at invariant subspaces, so that with an exact line search every pass, on a reset or between resets, brings the sum of the Ritz values strictly closer to its optimum until the block spans eigenvectors; a guess y0 that already does is returned unchanged.",
  "For all Hermitian operators, preconditioners with positive quadratic form, block sizes, blocks of full rank; in particular for the Maxwell operator and its approximate inverse on all grids without a wave vector that vanishes or lies along y, for all real positive epsilon.",
  "The gradient is a statement about all directions of perturbation, progress one about all blocks; a test observes that some runs converge, which a wrong direction with a line search also does.",
  ["meanas/fdfd/bloch.py: eigsolve, inverse_maxwell_operator_approx"])

p("C129", "Discrete resonances converge to the resonances of Maxwell's equations with second order",
  "Take a smooth field of a periodic box that solves Maxwell's equations without sources at a frequency w0 > 0, in any real medium with permittivity and permeability bounded below. There is a constant C such that on every fine enough uniform grid `fdfd.operators.e_full`, built from the sampled media, has a resonance w > 0 with |w - w0| <= C * (sum of squared cell widths), and for every gap g the samples of the field are, in the energy norm, within C / g * (sum of squared cell widths) of a combination of fields resonant within g of w0. Every resonance w of `e_full` is also a tone of `maxwell_e` / `maxwell_h`: below the time-step bound some initial state oscillates as E_n = cos(W n dt) E_0 with sin(W dt / 2) = w dt / 2; hence on fine grids, for every stable time step, some initial state oscillates at a frequency within C' * (sum of squared cell widths) of w0.",
  "For all periodic boxes, smooth real media bounded below, smooth resonant fields, uniform grids finer than a bound that depends on the field only, gaps, stable time steps, steps and cells.",
  "Tests compare the resonance of one structure on one or two grids; they cannot give a constant that holds for all grids, nor for all media and fields.",
  ["meanas/fdfd/operators.py: e_full", "meanas/fdmath/operators.py: curl_forward, curl_back", "meanas/fdtd/base.py: maxwell_e, maxwell_h"])

p("C130", "The dispersion of waveguide modes converges to that of Maxwell's equations with second order",
  "Take a smooth wave of Maxwell's equations travelling as exp(-i beta z), beta != 0 real, at a frequency w0 > 0 along a waveguide with a periodic cross-section in any real medium with permittivity and permeability bounded below. There is a constant C such that on every fine enough uniform cross-section there is a frequency w > 0 with |w - w0| <= C * (sum of squared cell widths) at which beta^2 is exactly an eigenvalue of `waveguide_2d.operator_e` and of `operator_h` built from the sampled media; and for every gap g <= w0 the samples of the wave are, in the energy norm, within C / g * (sum of squared cell widths) of a combination of modes with this beta and frequencies within g of w0. The samples satisfy the curls of `e2h` and `h2e` up to M * (sum of squared widths) / 24, M the bound on the third derivatives.",
  "For all periods of the cross-section, smooth real media bounded below, guided waves, uniform grids finer than a bound that depends on the wave only, gaps, cells and components.",
  "Tests compare the wavenumber of one waveguide on one or two grids; they cannot give a constant that holds for all grids, nor for all media and modes.",
  ["meanas/fdfd/waveguide_2d.py: operator_e, operator_h, curl_e, curl_h, e2h, h2e", "meanas/fdmath/operators.py: deriv_forward, deriv_back"])

p("C131", "In homogeneous media the spectra are exactly those of plane waves",
  "On a uniform periodic grid with constant epsilon and mu: `e_full(omega, ...)` has a non-zero null vector exactly when omega^2 eps mu = sum_a (2 sin(pi n_a / N_a) / d_a)^2 for some integers n_a; the eigenvalues of `waveguide_2d.operator_e` and of `operator_h` are exactly omega^2 eps mu - sum_a (2 sin(pi n_a / N_a) / d_a)^2, with eigenvectors the plane waves of every transverse polarisation; and the eigenvalues of `bloch.maxwell_operator` are exactly -|k|^2 / epsilon for the wave vectors k of the grid, that is, without numerical dispersion. There are no other, spurious, values.",
  "For all grid shapes (including one-cell axes), non-zero complex cell widths, non-zero complex constants epsilon and mu, frequencies, Bloch vectors and lattices without vanishing or y-directed wave vectors.",
  "A test can find some of the values on one grid; it cannot show for all grids that they are all present and that there are no others.",
  ["meanas/fdfd/operators.py: e_full", "meanas/fdfd/waveguide_2d.py: operator_e, operator_h", "meanas/fdfd/bloch.py: maxwell_operator"])

p("C132", "The documented widths of a non-uniform grid are the distances between the documented positions",
  "On the grid described in `meanas.fdmath` (E fore-vectors at the centres of base cells of width dx[m], H back-vectors at the vertices, dx_e = dx, dx_h[m] = dx'[m] = (dx[m] + dx[m+1]) / 2), `deriv_forward(dx_e)` of field samples at the E positions and `deriv_back(dx_h)` of field samples at the H positions approximate the derivative of the field.",
  "For all dimensions, axes, numbers of cells and positive cell widths, all inner cells, and all differentiable fields.",
  "A test on a uniform grid passes; on a graded grid the result is close to the truth as long as neighbouring cells are nearly equal.",
  ["meanas/fdmath/__init__.py: Scalar derivatives and cell shifts, Grid description", "meanas/fdmath/types.py: dx_lists_t", "meanas/fdmath/functional.py: deriv_forward, deriv_back", "examples/fdtd.py: dxes = [grid.dxyz, grid.autoshifted_dxyz()]"])

p("C133", "FDTD and FDFD converge with second order on arbitrary non-uniform grids",
  "With dx_e the widths of the cells and dx_h[m] = (dx_e[m-1] + dx_e[m]) / 2 (distances between the middles of the cells), media and currents sampled at the positions of the components: a run of the `maxwell_e` / `maxwell_h` updates started from the samples of a smooth solution of Maxwell's equations stays within C (dt^2 + sum h^2) of the solution, and a driven FDFD solution in a lossy medium is within C sum h^2 of the smooth time-harmonic solution (E from `solvers.generic`, H from `e2h`). One constant C serves all grids of the box: the widths of neighbouring cells may differ by any factor, although the differences themselves are then only first-order accurate.",
  "For all smooth periodic solutions with bounded media, all cell widths between m > 0 and h, all time steps below the Courant bound of the smallest cells, all numbers of steps up to a fixed time; for FDFD all frequencies, media with loss of one sign, matrix solvers that solve.",
  "Convergence is a statement about all refinements; a test sees a few grids, and the first-order local error suggests the wrong order.",
  ["meanas/fdtd/base.py: maxwell_e, maxwell_h", "meanas/fdfd/operators.py: e_full, e2h", "meanas/fdfd/solvers.py: generic", "meanas/fdmath/functional.py: curl_forward, curl_back"])

p("C134", "Lorentz reciprocity through any surface; overlap integrals do not depend on the plane",
  "For two FDFD fields in the same medium (H from `e2h`), the flux of E1 x H2 - E2 x H1 (with `poynting_e_cross_h`) out of any set of cells equals the difference of the reactions sum volE (E2 J1 - E1 J2) of the currents in those cells. So between two planes without sources the overlap integral of two fields is the same at every plane, in particular the overlap of a simulated field with a waveguide mode from `solve_mode` continued by `expand_e`. In lossless media the same holds for E1 x H2* + E2* x H1, the cross term of the power of two fields.",
  "For all grid sizes, axes, sets of cells, pairs of planes, cell widths (complex for the unconjugated form), frequencies, complex eps and mu (unconjugated form) or real ones (conjugated form), all fields that satisfy the equations in the cells concerned only.",
  "Overlaps are computed at one plane; whether another plane would have given the same number depends on the exact cancellation of the discrete cross product against the discrete curls in every medium.",
  ["meanas/fdfd/operators.py: e_full, e2h, poynting_e_cross", "meanas/fdfd/functional.py: poynting_e_cross_h", "meanas/fdfd/waveguide_3d.py: solve_mode, expand_e"])

p("C135", "Shift of resonances with the media, and decay of lossy resonances",
  "For source-free fields of `e_full` (resonances): the frequencies w0, w1 of two cavities with the same grid and conductors and any two media satisfy exactly (w1 - w0)(int eps0 E0 E1 - int mu0 H0 H1) = -w1 (int (eps1 - eps0) E0 E1 - int (mu1 - mu0) H0 H1), H from `e2h`. Along any continuous branch of resonances of media depending differentiably on a parameter, the frequency is differentiable with derivative -w/2 (int deps E E - int dmu H H) / int eps E E; for a lossless unperturbed cavity -w/2 (int deps |E|^2 + int dmu |H|^2) / int eps |E|^2. In lossy media the phase of w^2 is opposite to that of int eps |E|^2, and with Im eps <= 0 every resonance lies in the first or third quadrant (decays under exp(iwt)).",
  "For all grid sizes, conductor masks, media (complex), widths (complex for the unconjugated formulas), all resonances different from zero, all differentiable families of media and continuous branches.",
  "A numerical derivative of an eigenfrequency is only approximate and depends on following the same mode; the exact identity relates two different simulations.",
  ["meanas/fdfd/operators.py: e_full, e2h"])

p("C136", "Shift of Bloch bands with the permittivity",
  "For eigenvectors h, h' of `maxwell_operator` (eigenvalues lam, lam') at the same Bloch vector in two media, the first lossless: (lam' - lam) <h, h'> = N sum (eps' - eps) conj(E) E', with the fields of `hmn_2_exyz` and N the number of cells. Along any path of media starting at a lossless one, a band with continuous coefficients has a differentiable eigenvalue with derivative N sum deps |E|^2 / |h|^2, and its frequency satisfies d omega / omega = -1/2 sum deps |E|^2 / sum eps |E|^2 (with complex deps the imaginary part is the decay rate by added loss).",
  "For all grids, lattices, Bloch vectors, media (lossless unperturbed, any perturbed), bands with non-zero frequency for the last formula.",
  "A finite difference of eigensolver results is only approximate and confuses bands; the identity compares modes of two different structures.",
  ["meanas/fdfd/bloch.py: maxwell_operator, hmn_2_exyz"])

p("C137", "Eigenmode expansion does not depend on the arbitrary phases and order of the modes",
  "Mode solvers return every mode with an arbitrary phase factor and in arbitrary order. Multiplying modes on either side of an interface (E and H together) by factors of magnitude one and listing them in another order changes the matrices of eme.get_tr and eme.get_abcd by exactly these factors and this order, also when singular values above one are clipped, so that transmitted and reflected power fractions are unchanged. The same holds for the magnitudes of the entries of eme.get_s, with and without force_reciprocal.",
  "for all numbers of modes, all mode fields and grids, all permutations and all factors of magnitude one on both sides, every numpy.linalg that meets its contract",
  "Tests would compare a few mode lists with a few phases; the clipping step goes through a singular value decomposition whose factors are not unique, so only a proof shows that the clipped matrix is well defined and follows every change of phase.",
  ["meanas/fdfd/eme.py:get_tr", "meanas/fdfd/eme.py:get_abcd", "meanas/fdfd/eme.py:get_s"])

p("C138", "Rounding errors of FDTD runs grow at most in proportion to the number of steps",
  "numpy rounds the result of every operation. Below the time-step bound of C12, an FDTD run (update_E, current injection, update_H, magnetic current injection, repeated) computed with rounded operations stays close to the exact run: in the energy norm the difference after n steps is at most 3456/(1-q) times n times the unit roundoff times the norm of the starting fields plus the norms of all injected sources, as long as 144*sqrt(6/(1-q))*n*u <= 1. For float64 this covers 10^10 steps on a typical grid.",
  "for all grids, cell widths, positive materials, sources, starting fields, numbers of steps, unit roundoffs u <= 1/100, and all ways of rounding with relative error at most u, including a different one in every operation",
  "A test can only compare two precisions for one run; rounding errors in other runs could add up or be amplified by the updates, and no exact run is available to compare with.",
  ["meanas/fdtd/base.py:maxwell_e", "meanas/fdtd/base.py:maxwell_h", "meanas/fdmath/functional.py:curl_forward", "meanas/fdmath/functional.py:curl_back", "meanas/fdmath/functional.py:deriv_forward", "meanas/fdmath/functional.py:deriv_back"])

p("C139", "Spectra of the source pulses",
  "As a function of time, the pulse of gaussian_packet has a gaussian spectrum around the frequency of the wavelength wl with the phase of its delay, its envelope has unit energy, and its full width at half maximum in angular frequency is the one that corresponds to dwl as documented. The spectrum of ricker_pulse is largest exactly at the frequency of wl and has no component at frequency zero, so that no static charge is left behind.",
  "for all positive wavelengths and bandwidths, time steps, turn_on in (0,1), all delays the root finder may return, all frequencies",
  "The spectrum is an integral over all times for every frequency; a test would compare a sampled transform with a tolerance that hides errors of a few percent.",
  ["meanas/fdtd/misc.py:gaussian_packet", "meanas/fdtd/misc.py:ricker_pulse"])

p("C140", "A bent waveguide is exactly a straight waveguide with graded media",
  "waveguide_cyl.cylindrical_operator(omega, dxes, epsilon, rmin) is the same matrix as waveguide_2d.operator_e for the media epsilon' = (Tb eps_x, Ta eps_y, eps_z/Ta), mu' = (Ta, Tb, 1/Tb), and the modes of the bend are the modes of that straight waveguide with the longitudinal components multiplied by Ta (E) and Tb (H). So the right fields of a bent mode are those of waveguide_2d.exy2e / exy2h for these media with the longitudinal components divided by Ta and Tb. Modes of a bend with different m^2 are orthogonal under the plain area-weighted overlap; 2 Im(m) Re(P) is omega times the absorption integrated with the radius; a lossless bend has real m; it always has a guided mode, m^2 int dA/(eps_r r) >= omega^2 int r dA, and adding dielectric never lowers its largest m; it guides at least two modes with m^2 >= omega^2 n_min^2 r_min^2, so mode numbers 0 and 1 of the solver are always propagating; dm/domega is the energy per radian over twice the power, with the sign of the power and at least n times the innermost radius.",
  "all cross-sections, widths, bend radii, media and frequencies (complex for the first four statements; real and positive for the rest), all eigenvectors, branches and modes",
  "The equivalence is an identity of matrices for all grids and radii, and its consequences quantify over all modes and over continuous branches of modes; tests can only compare a few numerical spectra.",
  ["meanas/fdfd/waveguide_cyl.py: cylindrical_operator, dxes2T", "meanas/fdfd/waveguide_2d.py: operator_e, exy2e, exy2h"])

p("C141", "Gradient of an FDTD measurement from one additional run",
  "Let F be what a probe (J', M') records by step N in an FDTD run from rest with sources (J, M): the convolution of E with J' minus that of H with M', weighted with the cell volumes. If the media change, F changes by exactly sum over steps n <= N and cells of V_E (eps2 - eps1) (E(n+1) - E(n))/dt E'(N-n) - V_H (mu2 - mu1) (H(n+1) - H(n))/dt H'(N-n+1), with E, H the run in the old media and E', H' the run of the probe, used as source, in the new ones. So the derivatives of F with respect to epsilon and mu of all cells follow from two runs; the derivative of one recorded sample with respect to one cell is V sum (E(n+1)-E(n))/dt E'(N-n) in that cell.",
  "all grids (nonuniform included), real or complex media, sources, probes, numbers of steps, changes of media of any size and all differentiable curves of media",
  "Finite differences of a few runs only approximate the derivative and only for chosen cells; the identity is exact and for all cells, sources and probes.",
  ["meanas/fdtd/base.py: maxwell_e, maxwell_h", "meanas/fdmath/functional.py: curl_forward, curl_back"])

p("C142", "Driven fields are sums over the resonances; Foster's reactance theorem",
  "Lossless media on a real grid, with or without PEC and PMC cells. The field an FDFD solution returns for the current J at frequency omega contains each resonant field E_k with amplitude -i omega int E_k* J dV / (omega_k^2 - omega^2), and is the sum of these; so it grows without bound near every resonance the current couples to, and at a resonance itself there is a solution exactly when the current does not couple to it. At real frequencies the current exchanges reactive power only, -Im int J* E dV; its derivative with respect to omega is the stored energy int eps |E|^2 + mu |H|^2 dV (Foster's theorem). So it rises strictly between resonances, and between two neighbouring resonances excited by the current there is exactly one antiresonance, at which it takes no power.",
  "all grids and positive widths, lossless media, PEC and PMC masks, currents outside the conductor, complex frequencies (first three statements) or real nonzero ones, and all resonant fields",
  "The expansion, the derivative and the count of antiresonances hold for every frequency between resonances; a test scans finitely many frequencies of one structure.",
  ["meanas/fdfd/operators.py: e_full, e2h", "meanas/fdfd/solvers.py: generic"])

p("C143", "In one dimension the default CPML is a conductor that absorbs everything",
  "A one-dimensional simulation (grid one cell wide across the propagation axis) with layers from cpml_params at the default cfs_alpha = 0, sources and initial fields outside the layers. Its fields are exactly those of a run without CPML in which the transverse fields in the layers are multiplied by p0 = exp(-sigma dt / kappa) in every step and the cells there are kappa times as wide: a conductor, with electric and magnetic losses from the same profile. Below the Courant limit dt <= theta min(dx) sqrt(min eps min mu), theta < 1, the run is stable for all times (energy at most (1+theta)/(1-theta) times the initial one), and once the sources have stopped the transverse fields tend to zero in every cell, for every arrangement of media: nothing stays trapped.",
  "all grid lengths and positive cell widths, all three axes, layers on one or both ends, all layer parameters with cfs_alpha = 0 and epsilon_eff mu_eff >= 1, all positive media, all sources and initial fields outside the layers, all times",
  "Stability and decay are statements about all later times and all media; late-time growth of an absorber is the classic defect that finite runs miss.",
  ["meanas/fdtd/pml.py: cpml_params, updates_with_cpml"])

p("C144", "Between SCPML layers a one-dimensional FDFD problem has exactly one solution at every frequency",
  "On a grid one cell wide across an axis, with layers made by `uniform_grid_scpml` or `stretch_with_scpml` (default profile or any `prepare_s_function(ln_R < 0, m > 0)`), passive media and a real frequency omega > 0, the matrix `e_full` is never singular: no current means no field, every current has exactly one field, and `generic` with an exact matrix solver returns it. There are no resonances, whatever stands between the layers (also metal films). The power that the current delivers is what the layers and the media absorb, with the imaginary parts of `width * epsilon` and `width * mu` as conductivities. One call of `stretch_with_scpml` is enough (at the back it needs two cells), and the usual pair of calls front and back gives such a grid.",
  "all numbers of cells, axes, thicknesses >= 1, real positive grids, epsilon_effective > 0, profiles with ln_R < 0 and m > 0, frequencies > 0, passive permittivities (any sign of the real part outside of the layers), permeabilities with positive real part and no gain, currents",
  "A test solves some problems; that no frequency and no structure makes the matrix singular is a statement about all of them, and near a resonance of the box without layers a numerical solve only looks inaccurate.",
  ["meanas/fdfd/scpml.py: uniform_grid_scpml", "meanas/fdfd/scpml.py: stretch_with_scpml", "meanas/fdfd/scpml.py: prepare_s_function", "meanas/fdfd/operators.py: e_full", "meanas/fdfd/solvers.py: generic"])

p("C145", "Scattered fields: equivalent currents in FDFD and FDTD, and the optical theorem",
  "If E0 is the field of a current without a scatterer (epsilon0, mu0), then E is the field of the same current with the scatterer (epsilon, mu) exactly if E - E0 is the field, in the structure with scatterer, of the electric current i omega (epsilon - epsilon0) E0 plus the magnetic current i omega (mu - mu0) H0 converted by `operators.m2j`; equivalently E - E0 is the field of the polarisation current i omega (epsilon - epsilon0) E in the background. In FDTD the difference of the two runs is a run with the currents (epsilon - epsilon0) (E0[n+1] - E0[n]) / dt and (mu - mu0) (H0[n+1] - H0[n]) / dt. The power scattered through any surface around the scatterer plus the power absorbed equals the extinction, the work of the incident field on the polarisation current; for passive media scattered power, absorption and extinction are not negative.",
  "all grids (optical theorem: real grids), frequencies, media, currents, masks, sets of cells, numbers of time steps",
  "A comparison of two simulations on an example shows agreement to solver tolerance in that example; that the equivalent currents are exact on the grid, with the right sign, the half-cell and half-step positions of the code and for all structures, needs the algebra.",
  ["meanas/fdfd/operators.py: e_full", "meanas/fdfd/operators.py: e2h", "meanas/fdfd/operators.py: m2j", "meanas/fdfd/functional.py: poynting_e_cross_h", "meanas/fdtd/base.py: maxwell_e", "meanas/fdtd/base.py: maxwell_h"])

p("C146", "Reflection at a planar interface on the grid: exact coefficients, power, order of accuracy",
  "For a wave that meets, at normal incidence, a plane where permittivity, permeability or cell width change from one uniform value to another, incident, reflected and transmitted grid waves satisfy the FDFD equation of `e_full` in every inner cell if and only if t = 1 + r and r = (S1 - S2 - i delta) / (S1 + S2 + i delta), with S = sin(kappa) / (mu w), kappa the phase per cell and delta = omega^2 (w0 eps0 - (w1 eps1 + w2 eps2) / 2) where w0, eps0 belong to the interface plane. In lossless media reflected and transmitted power add up to the incident power. With the averaged permittivity in the interface plane the reflection agrees with Fresnel's coefficient to second order in the cell size, with an explicit bound; with any other value (a boundary rounded to whole cells) there is an error of first order. Where only the complex cell width changes (entrance of an SCPML layer, step of the grid), the spurious reflection is exactly (w2^2 - w1^2) (omega n / 2)^2 / (cos(kappa1/2) + cos(kappa2/2))^2, of second order.",
  "all grids with one cell in the two transverse directions, axes and polarisations, positions of the interface, complex widths, media and frequencies (power and accuracy: real positive ones)",
  "A reflection computed on an example grid shows a number near Fresnel's; that the coefficients are exact, that energy balances to the last digit, and the order with which the error falls are statements about all cell sizes and media.",
  ["meanas/fdfd/operators.py: e_full", "meanas/fdfd/scpml.py: stretch_with_scpml", "meanas/fdmath/operators.py: curl_forward", "meanas/fdmath/operators.py: curl_back"])

p("C147", "Electromagnetic duality: the H-field functions are the E-field functions of the dual problem",
  "Move the grid by half a cell along every axis (dual E widths = old H widths, dual H widths = old E widths one cell back) and exchange E with H, epsilon with mu, and the PEC with the PMC mask. Then `h_full` acting on H is `e_full` of the dual problem acting on the moved H. Fields E, H satisfy the frequency-domain equations with currents J, M if and only if E' = H, H' = -E satisfy the dual ones with J' = M, M' = -J. An FDTD script with the calls of `maxwell_e` and `maxwell_h` and the two kinds of current exchanged produces, after every sequence of calls, the fields E' = H, H' = -E. In waveguides `operator_h` is `operator_e` of the dual cross-section, modes map to modes with the same wavenumber, `hxy2h` is dual to `exy2e`, `hxy2e` to `exy2h` (up to the sign), and `h_err` equals the dual `e_err`.",
  "all shapes, nonuniform and complex grids, media, masks, sources, frequencies, wavenumbers and sequences of FDTD calls; mu may be omitted",
  "Tests compare E- and H-formulations on single examples up to a tolerance. That each pair of functions is one function seen from the other half of the Yee cell, on every nonuniform grid and with every medium, is an identity between operators.",
  ["meanas/fdfd/operators.py: e_full", "meanas/fdfd/operators.py: h_full", "meanas/fdtd/base.py: maxwell_e", "meanas/fdtd/base.py: maxwell_h", "meanas/fdfd/waveguide_2d.py: operator_e", "meanas/fdfd/waveguide_2d.py: operator_h", "meanas/fdfd/waveguide_2d.py: hxy2h", "meanas/fdfd/waveguide_2d.py: hxy2e", "meanas/fdfd/waveguide_2d.py: h_err"])

p("C148", "Static fields in FDTD: what a run never changes and what a source leaves behind",
  "The states that `maxwell_e` and `maxwell_h` leave unchanged are exactly those with curl-free E and curl-free H. For every curl-free field G (gradients, and the uniform fields of the periodic domain) the sum of V eps G.E over the grid changes in a run only by the overlap of G with the injected currents, and likewise for H; no other linear combination of the electric field is conserved by `maxwell_e`. Below the documented time-step bound the time averages of the fields of a source-free run converge, with an error of at most C/N after N steps, to the static fields with the same conserved quantities. A run started by sources from empty fields keeps for ever the static field whose overlaps are those of the sum of all injected currents; a point source leaves none behind if and only if its samples add up to zero.",
  "all shapes, positive non-uniform grids, media, time steps below the bound, states, step counts and sequences of updates and injections",
  "A simulation shows a field that stays behind for one pulse; that this is fixed by the sum of the samples alone, on every grid, with every medium and for ever, and that nothing else is conserved, are statements about all runs.",
  ["meanas/fdtd/base.py: maxwell_e", "meanas/fdtd/base.py: maxwell_h", "meanas/fdtd/misc.py: gaussian_packet", "meanas/fdtd/misc.py: ricker_pulse"])

p("C149", "A closed PEC (or PMC) wall shields its interior",
  "If the pec mask covers a wall that encloses a set of edges (every grid face with an edge in the set has all its edges in the set or in the wall), e_full has no entries between the set and the rest: fields that agree inside give the same e_full E inside whatever fields, media and conductors are outside, and cutting a field off at the wall cuts e_full E off there. In a lossy system two simulations with the same sources and media inside have the same field inside, so generic with an exact solver returns the same values there and a region without sources is dark; the magnetic field of e2h inside does not depend on the outside either. The tangential edges on the six sides of any box form such a wall; the tangential faces of a box through cell centres do the same for pmc and h_full.",
  "every shape, grid, medium, frequency, mask, wall, box, current and field",
  "A simulation can show a small field behind one wall; that the coupling is exactly zero for every wall shape, medium and source outside is a statement about all matrices.",
  ["meanas/fdfd/operators.py: e_full", "meanas/fdfd/operators.py: h_full", "meanas/fdfd/operators.py: e2h", "meanas/fdfd/solvers.py: generic"])

p("C150", "Cell widths are media: stretched grids and anisotropic media are interchangeable",
  "Simulations on two grids with the same number of cells and any nonzero (also complex) widths are translated into one another exactly: with E_c multiplied by the ratio of the E widths along c, H_c by that of the H widths, currents by the ratios of the face areas, epsilon_c by (area of the face crossed by E_c) / (length of its edge) and mu_c likewise, every FDTD run, e_full, h_full, e2h, m2j and their driven solutions, with the same PEC/PMC masks, and operator_e and the modes of a waveguide with the same wavenumber, become those on the other grid. In particular the grid of uniform_grid_scpml is the unit grid with an anisotropic absorbing medium (UPML), and a layer added by stretch_with_scpml is such a medium confined to the layer; outside it media, fields and currents are unchanged.",
  "all shapes, pairs of grids with nonzero widths, media, masks, fields, currents, frequencies, sequences of updates and injections, absorber parameters",
  "Runs on two grids can be compared for samples; that every grid is exactly equivalent to every other with substituted media is a statement about all of them.",
  ["meanas/fdtd/base.py: maxwell_e", "meanas/fdtd/base.py: maxwell_h", "meanas/fdfd/operators.py: e_full", "meanas/fdfd/operators.py: h_full", "meanas/fdfd/operators.py: e2h", "meanas/fdfd/operators.py: m2j", "meanas/fdfd/scpml.py: uniform_grid_scpml", "meanas/fdfd/scpml.py: stretch_with_scpml", "meanas/fdfd/waveguide_2d.py: operator_e"])

p("C151", "Number types (dtypes) never change results silently",
  "Whatever the number types (integer, floating, complex) of the field, material and width arrays passed to the array functions, meanas computes with the values in the arrays: fdmath.functional.curl_forward/curl_back, fdtd.maxwell_e/maxwell_h and the functional e_full either return what exact arithmetic on the values gives, in the type of the updated field, or raise, and they raise exactly when a non-complex field meets complex widths/fields/materials or an integer field meets widths; fdtd.poynting, fdfd.functional.poynting_e_cross_h and waveguide_3d.expand_e never discard an imaginary part; updates_with_cpml works for real and for complex fields. (False for poynting, poynting_e_cross_h and expand_e, whose result is written into empty_like/zeros_like of a floating argument: only the real part is returned; updates_with_cpml with its default dtype raises for complex fields as soon as one layer exists.)",
  "all shapes, all assignments of number types to all arrays (widths per axis), all values of these types, all time steps, layers and slices",
  "Tests use one or two combinations of types, nearly always float64 fields on float64 grids or complex fields everywhere; the failing combinations produce a warning at most, and the returned arrays look plausible.",
  ["meanas/fdmath/functional.py: curl_forward, curl_back", "meanas/fdtd/base.py: maxwell_e, maxwell_h", "meanas/fdtd/energy.py: poynting", "meanas/fdtd/pml.py: updates_with_cpml", "meanas/fdfd/functional.py: e_full, poynting_e_cross_h", "meanas/fdfd/waveguide_3d.py: expand_e"])

p("C152", "SCPML layers return the designed amplitude exp(ln_R), so that fields between them are those of open space",
  "On a grid along one axis (any axis) whose two ends were stretched with stretch_with_scpml (front and back in any order, prepare_s_function(ln_R, m) with m >= 2 or the default, epsilon_effective equal to the permittivity at the layers), a wave that enters the layers in the equation of fdfd.operators.e_full comes out of the opposite layer (the grid wraps around) with its amplitude multiplied by exp(ln_R) (and the phase of open space over twice the thickness), up to a constant times the square of the cell width; the constant depends on omega, permittivity, ln_R, m and the thickness in length units, but not on the number of cells nor on the media and currents between the layers. In a homogeneous medium the whole field between the layers therefore equals the field of the same currents on an infinite lattice up to exp(ln_R)/(1-exp(ln_R)) (plus any delta, for cells small enough) times the waves entering the layers; behind a one-sided source the field is dark to that accuracy.",
  "all axes and polarisations, all omega > 0, permittivities > 0, ln_R <= 0, m >= 2, thicknesses, numbers of cells, media and currents between the layers, all cell widths with sqrt(eps)*omega*w <= 1",
  "The existing test solves one grid of 100 cells with one source and compares magnitudes with a hand-picked tolerance; that the error is the designed one, for all grids, frequencies and sources, and decays with the square of the cell width is a statement about a limit.",
  ["meanas/fdfd/scpml.py: prepare_s_function, stretch_with_scpml", "meanas/fdfd/operators.py: e_full", "meanas/test/test_fdfd_pml.py: test_pml"])

p("C153", "SCPML layers absorb oblique waves with amplitude exp(ln_R cos θ), and grazing waves make e_full singular",
  "On a three-dimensional grid that is uniform across one axis, with SCPML layers of thickness D made by stretch_with_scpml at both ends of that axis, every propagating transverse Fourier component of E (a component across the axis) leaves the layers multiplied by exp((ln_R - 2i k D) cos θ), up to a constant times the cell width squared, where cos θ = κ/k on the lattice; the constant is the same for all components and does not depend on the grid nor on media and currents between the layers. In a homogeneous medium each such component is the open-space lattice field of the current up to η/(1-η), η = exp(ln_R cos θ) + C w². The equation e_full E = -iωJ has exactly one solution for every J, unless ω²ε equals one of the squared transverse wave numbers of the periodic grid; then the matrix is singular although the layers absorb.",
  "all 3D shapes with real uniform widths across, all axes and E components across the axis, all transverse Bloch phases with κ > 0, all ω, ε > 0, ln_R ≤ 0, m ≥ 2, all interior media (layers) or homogeneous media (open space), all currents outside the layers",
  "a test simulates one frequency and one angle on one grid; the angular law, the uniform second-order constant and the exact set of singular frequencies are statements about all of them",
  ["meanas/fdfd/scpml.py:prepare_s_function", "meanas/fdfd/scpml.py:stretch_with_scpml", "meanas/fdfd/operators.py:e_full", "meanas/test/test_fdfd_pml.py"])

p("C154", "get_abcd returns a transfer matrix wherever get_s returns a scattering matrix",
  "For any two lists of modes and any grid for which eme.get_s returns a scattering matrix, eme.get_abcd returns the transfer matrix of the same interface instead of raising.",
  "every pair of mode lists of any length, every cross-section and grid, whatever numpy.linalg returns",
  "a test that calls get_abcd once shows one exception; that no arguments at all avoid it, and that converting the blocks is the only thing missing, are statements about all inputs",
  ["meanas/fdfd/eme.py:get_abcd", "meanas/fdfd/eme.py:get_s"])

p("C155", "waveguide_3d slices mean what they select, however their bounds are written",
  "The slices handed to compute_source and compute_overlap_e may be written with None, negative or out-of-range bounds like any Python slice; two spellings that select the same cells give the same result. This holds for compute_source for all spellings. For compute_overlap_e it holds when the start along the axis is counted from the beginning, and when it is counted from the end and the two overlap planes do not run past the end of the array. It is false otherwise: slice(None, 1) raises TypeError; for polarity -1 the planes -1 and -2 always give NaN although the same planes counted from the beginning give the overlap vector; for polarity +1 the plane 1-n gives an overlap vector although plane 1 gives NaN.",
  "all grid shapes, axes, fields, wavenumbers, cell widths (complex), all start/stop bounds in None or the integers that select a nonempty window and one item along the axis; both polarities",
  "The bounds are read as numbers in one place and as slices in others; the difference shows only for some spellings next to the ends of the array, which no test writes.",
  ["meanas/fdfd/waveguide_3d.py:compute_source", "meanas/fdfd/waveguide_3d.py:compute_overlap_e", "meanas/fdfd/waveguide_3d.py:expand_e"])

p("C156", "The solver tolerance bounds the residual and the error of the returned field",
  "With the default matrix solver, the field E returned by generic() satisfies the wave equation up to the requested relative tolerance: the residual of e_full @ E = -i omega J, each cell counted with its (modulus of the) volume, is at most rtol times the right-hand side, on every grid and with every PEC/PMC mask; in media with loss at least delta the field is within rtol/(|omega| delta) of the solution. Proved whenever scipy's qmr reports convergence. False otherwise: _scipy_qmr discards the status returned by qmr, so that generic returns whatever vector the solver stopped at (for instance zero) without an exception.",
  "all problems, grids with nonzero (complex) widths, masks, options, tolerances, and all solvers that keep scipy's promise about converged results",
  "Concerns the norm in which an iterative solver's tolerance is measured after two diagonal transformations, for every grid, and what happens when the solver fails.",
  ["meanas/fdfd/solvers.py:_scipy_qmr", "meanas/fdfd/solvers.py:generic", "meanas/fdfd/operators.py:e_full_preconditioners"])

p("C157", "An array of identical unit cells behaves as its unit cell with periodic boundaries",
  "On a grid that consists of N0 x N1 x N2 copies of one unit cell (cell widths, eps, mu and conductor masks repeated, as np.tile does): an FDTD run with repeated initial fields and currents is the repetition of the run on one cell, and for arbitrary fields and currents their sums over the copies evolve like the fields of one cell; e_full and e2h map repeated fields to repeated fields; a driven FDFD problem with repeated current is solvable exactly if the one of the cell is, the mean over the copies of any solution solves the cell, and a unique solution is the repeated one (so in lossy media generic() with an exact matrix solver returns the repeated field); every resonance of the cell is one of the array.",
  "all unit cell shapes, all numbers of repetitions along the three axes, all (nonuniform) widths, media, masks, frequencies, fields, currents and FDTD sequences",
  "A statement relating problems of different shapes, for all repetition counts and all runs.",
  ["meanas/fdtd/base.py:maxwell_e", "meanas/fdtd/base.py:maxwell_h", "meanas/fdmath/functional.py:deriv_forward", "meanas/fdmath/functional.py:deriv_back", "meanas/fdfd/operators.py:e_full", "meanas/fdfd/operators.py:e2h", "meanas/fdfd/solvers.py:generic"])

p("C158", "Band folding: the Bloch bands of a supercell are those of its unit cell",
  "If the permittivity array consists of N0 x N1 x N2 copies of a unit cell and the lattice vectors are lengthened accordingly (G_matrix columns divided by N), then bloch.maxwell_operator on the supercell at Bloch vector k0 is the direct sum of maxwell_operator on the unit cell at the N0 N1 N2 Bloch vectors (k0 - j)/N: the result is finite exactly if all of them are, and every sector of plane waves is acted on exactly as in the unit cell. Hence the bands of the supercell are the bands of the unit cell at these Bloch vectors, all of them and no others, and the fields returned by hmn_2_exyz and hmn_2_hxyz are those of the unit cell times a phase that advances by exp(2 pi i j / N) per cell.",
  "all unit cell shapes (even or odd numbers of cells), all repetition counts, lattices, Bloch vectors, complex permittivities and coefficient vectors",
  "Relates discretised operators of different sizes, including how the frequencies of numpy's FFT fold for even and odd sizes, for all media.",
  ["meanas/fdfd/bloch.py:generate_kmn", "meanas/fdfd/bloch.py:maxwell_operator", "meanas/fdfd/bloch.py:hmn_2_exyz", "meanas/fdfd/bloch.py:hmn_2_hxyz"])

p("C159", "Bloch bands are continuous in the Bloch vector, with slope at most that of light in the lowest permittivity",
  "The frequencies of the n-th band of bloch.maxwell_operator (square roots of the sorted eigenvalues, with multiplicity) at two Bloch vectors k, k' differ by at most |k - k'| / sqrt(min epsilon): bands cannot jump between neighbouring points of a k-path and no group velocity exceeds that of light in the lowest permittivity. Proved for all Bloch vectors where no plane wave of the grid has kx = 0, ky != 0. False otherwise: generate_kmn then uses a vector m that is not transverse, and the bands jump (in a uniaxial crystal, from 1/8 to 5/64 in squared frequency).",
  "all grids, lattices, pairs of Bloch vectors, positive permittivities, bands",
  "Continuity of all sorted eigenvalues over a continuum of Bloch vectors.",
  ["meanas/fdfd/bloch.py:generate_kmn", "meanas/fdfd/bloch.py:maxwell_operator"])

p("C160", "FDFD fields depend continuously on current, medium, frequency and solver accuracy, with the distance to the nearest resonance as condition number",
  "Lossless structure on a real grid, with or without PEC and PMC cells; g = distance of omega^2 to the nearest squared resonance frequency. The field driven by a current J is at most |omega|/g times as large as J (norms weighted with epsilon dV and dV/epsilon), and for the field of each resonance this is attained. If the permittivity is changed everywhere by at most a fraction t (also by adding loss or gain) with t |omega|^2 < g, every current still has exactly one field, and it changes by at most t |omega|^2 / (g - t |omega|^2) times the original one. If the frequency is changed, the field changes by at most (|omega'^2 - omega^2| |E'| + |omega' - omega| |J|)/g. If the default matrix solver reports convergence with relative tolerance rtol, the field returned by generic() is within rtol |omega| / (g min epsilon) times the norm of J of the solution.",
  "all grids and positive widths, lossless media, PEC/PMC masks, currents, complex frequencies, resonance gaps, complex changes of the permittivity, tolerances and solvers keeping scipy's promise",
  "A bound on the change of the solution for every perturbation of every structure; the condition number involves the whole spectrum.",
  ["meanas/fdfd/operators.py:e_full", "meanas/fdfd/solvers.py:generic", "meanas/fdfd/solvers.py:_scipy_qmr"])

p("C161", "Every stack of layers scatters waves with a definite, reciprocal and power-conserving scattering matrix",
  "A row of cells (one cell in the two transverse directions) with uniform widths and media on the left and on the right and anything in between. A field satisfying the equation of `e_full` without sources in the inner cells is, on each side, an incoming plus an outgoing grid wave with unique amplitudes A, B (left) and C, D (right). For any two fields S1 (A B' - B A') = S2 (C D' - D C') with S = sin(kappa)/(mu w), for complex media and widths too; so transmission is reciprocal. With real positive widths and permeability, S1(|A|^2 - |B|^2) + S2(|D|^2 - |C|^2) is the power absorbed by Im(eps) in the stack. If the stack is passive, all incoming waves (from both sides at once) have exactly one pair of outgoing waves. In lossless stacks the reflections from both sides have the same modulus and |r|^2 + (S2/S1)|t|^2 = 1.",
  "all row lengths, axes, polarisations, positions and contents of the stack, complex widths, media and frequencies (power and existence: real positive widths, permeability and frequency, permittivity without gain)",
  "Arbitrary numbers of layers with arbitrary contents and all incoming waves.",
  ["meanas/fdfd/operators.py:e_full"])

p("C162", "`eigsolve` stops by its own test after a number of passes known beforehand",
  "Let E be |trace(Z^H A Z (Z^H Z)^-1)| for the guess. For every Hermitian operator and a line search that never does worse than standing still: if the main loop runs out of n + 1 passes, then (1 + tol/2)^n (E_last + 5e-8) <= (1 - tol/2)^n (E + 5e-8), with E_last the objective of the last block it examined; so n <= (1/tol + 1/2) log(1 + 2e7 E). Hence a call with tolerance > 0, independent trial vectors and max_iters > 1 + (1/tol + 1/2) log(1 + 2e7 E) that returns has met its stopping test: raising max_iters further changes nothing. For one mode, a negative definite operator, a preconditioner with a positive quadratic form and an exact line search the call does return, with its test met, unless a trial vector has become an exact eigenvector and the division by its vanishing gradient gives NaN.",
  "all operators, preconditioners, numbers of modes, tolerances, reset intervals, guesses and max_iters above the bound",
  "Bounds the number of passes for all operators and guesses; a test sees one run.",
  ["meanas/fdfd/bloch.py:eigsolve"])

p("C163", "The search of `eigsolve` tends to bands: the limit of its objective is a sum of eigenvalues",
  "In an infinite run of the main loop (no tolerance) with an exact line search, a negative definite Hermitian operator and a positive definite preconditioner, every full-rank limit of multiples of the blocks at resets spans an invariant subspace of the operator, and the objective tends to its value there. If the blocks stay well conditioned, the sum of the Ritz values tends to the sum of the eigenvalues on an invariant subspace of num_modes dimensions. For one mode no conditioning is needed: the Rayleigh quotients tend to an eigenvalue. For the Maxwell operator of every lattice, Bloch vector and real positive epsilon for which no wave vector of the grid is zero or along y, the Rayleigh quotients tend to minus a squared frequency of a mode of the grid; its preconditioner is multiplication by a Hermitian positive definite matrix.",
  "all grids, lattices, Bloch vectors, real positive permittivities, guesses, reset intervals and infinite runs",
  "A statement about limits of infinite runs.",
  ["meanas/fdfd/bloch.py:eigsolve", "meanas/fdfd/bloch.py:maxwell_operator", "meanas/fdfd/bloch.py:inverse_maxwell_operator_approx"])

p("C164", "The Bloch bands computed on a grid converge to the bands of the crystal",
  "Let a periodic crystal with permittivity bounded below by a positive constant have m linearly independent modes of Maxwell's equations (absolutely convergent Fourier series of E and D, ampere's law at every point, faraday's law for every plane wave) with the same squared frequency at a Bloch vector for which no plane wave has kx = 0 and ky != 0. Then the operator that `bloch.maxwell_operator` builds from the permittivity sampled on a grid with n to rho*n cells along each axis has at least m bands, counted with multiplicity, within C*n/w(n/2) of that squared frequency for every fine enough grid, for every weight w with which the Fourier series still converge: C/n^p for fields whose series converge with weights |g|^(p+1), exponentially small for analytic fields. On a single grid the distance is at most K*T/sigma, with K the largest wave vector of the grid, T the sum of the coefficients the grid does not represent, and sigma the independence of the modes on the grid.",
  "all lattices, Bloch vectors, permittivity functions, modes and their number, weights, aspect ratios and (fine enough) grids",
  "A test can only compare a few resolutions of one crystal; it cannot show convergence for every crystal, the multiplicities, or the rate.",
  ["meanas/fdfd/bloch.py:maxwell_operator", "meanas/fdfd/bloch.py:generate_kmn", "meanas/fdfd/bloch.py:eigsolve"])

p("C165", "The Bloch bands computed on finer and finer grids have no spurious limits",
  "Take a crystal with a positive bounded permittivity whose reciprocal has an absolutely convergent Fourier series, a nondegenerate lattice, and a Bloch vector for which no plane wave has kx = 0 and ky != 0. If m orthonormal eigenvectors of `bloch.maxwell_operator` are taken on grids that become finer along every axis and their eigenvalues converge, then along a subsequence the magnetic fields that `hmn_2_hxyz` makes of them converge, plane wave by plane wave, to m linearly independent transverse modes of finite energy of curl 1/eps curl H = lam H with the limits as squared frequencies. Consequently, if the crystal has no mode with squared frequency in an interval [a, b], the operator has no band there on any fine enough grid; if it has at most m independent modes at lam, the operator has at most m bands near lam on every fine enough grid; if it has exactly m, with the regularity of C164, the operator has exactly m bands near lam and they are as close as C164 says.",
  "all lattices, Bloch vectors, permittivity functions, sequences of grids, eigenvectors and their number, intervals",
  "A test sees finitely many grids of one crystal; it cannot show that no grid, however fine, has a band inside a gap of the crystal or an extra copy of a band.",
  ["meanas/fdfd/bloch.py:maxwell_operator", "meanas/fdfd/bloch.py:hmn_2_hxyz", "meanas/fdfd/bloch.py:generate_kmn"])

p("C166", "Modes of lossless waveguides and bends have normal dispersion",
  "For the fields of a mode of waveguide_2d.operator_e at real omega, 2 Re(beta) Re(P) = omega (W_x + W_y - W_z), W_c being the integral of eps|E_c|^2 + mu|H_c|^2 over the cross-section, in lossy media too. In a lossless waveguide P is real unless beta is imaginary, and a mode with imaginary beta has as much longitudinal as transverse energy. Along every continuous branch that carries power forwards the group index d(beta)/d(omega) exceeds the effective index beta/omega by W_z/P: it is never below it, and above it when the mode has a longitudinal field, so the effective index never falls with frequency. The same holds for m of waveguide_cyl.cylindrical_operator with the energies per radian.",
  "every real grid with positive widths (non-zero for the identity), material, frequency, bend radius, mode and continuous branch",
  "A test compares the effective indices of a few modes at two frequencies; that no grid, profile or branch ever shows anomalous dispersion, and the exact size of the difference, is a statement about all of them.",
  ["meanas/fdfd/waveguide_2d.py:operator_e", "meanas/fdfd/waveguide_2d.py:exy2e", "meanas/fdfd/waveguide_2d.py:exy2h", "meanas/fdfd/waveguide_cyl.py:cylindrical_operator"])

p("C167", "Oblique incidence on layers: Fresnel, Snell and total internal reflection on the grid",
  "On a grid layered along one axis and evenly spaced along a second one, a field polarised along the third axis with a fixed phase per cell along the layers reduces `e_full` exactly to a row of cells whose permittivity is lowered by (transverse wavenumber squared)/(omega^2 mu); all other components of `e_full @ e` vanish. `h_full` reduces in the same way to the row of the dual grid. Hence at a plane interface the field is free of sources exactly if reflection and transmission solve the grid's Fresnel equations, with one dispersion relation per side and the same transverse phase on both sides (Snell). With propagating waves on both sides the reflected and transmitted power add up to the incident power. If the transverse wavenumber exceeds what the second medium can carry, the reflected wave has exactly the amplitude of the incoming one and the field behind the interface decays exponentially but is not zero. Every passive stack has, for all obliquely incoming waves, exactly one set of outgoing waves.",
  "for all grid shapes, axes, polarisations, cell widths along the layered axis, frequencies, transverse phases that fit the period, layered permittivities and permeabilities (complex, anisotropic along the axes), fields, incoming amplitudes",
  "a simulation at one angle with one pair of media on one grid checks one number; the exact reduction, the uniqueness and the modulus 1 of the total reflection concern every angle, medium and grid",
  ["meanas/fdfd/operators.py:e_full", "meanas/fdfd/operators.py:h_full", "meanas/fdmath/operators.py:curl_forward", "meanas/fdmath/operators.py:curl_back"])

p("C168", "Complex frequencies: passivity, a bound that holds for every structure, Lorentzian averaging and the sum rule of the emitted power",
  "e_full and the other FDFD functions accept complex omega (fields proportional to exp(i omega t), growing in time for Im omega < 0). The power -Re int J* E dV delivered by the current at such a frequency equals -Im(omega) int mu |H|^2 dV - int Im(omega eps) |E|^2 dV, with H = e2h @ E. So in every passive structure (Re eps > 0, Im eps <= 0, mu > 0, any PEC and PMC cells) and for Im omega < 0 <= Re omega the current delivers at least |Im omega| times the stored energy, every current drives exactly one field, and the field is at most 1/|Im omega| times as large as the current, whatever the structure. Without loss, the power taken at a - i*gamma is the power spectrum of the resonances averaged with a Lorentzian of half width gamma; integrated over all a it is pi int |J|^2/eps dV, independent of gamma and of everything but the permittivity at the source (sum rule of spontaneous emission).",
  "all grids and positive widths, media (complex eps for the first part), PEC and PMC masks, currents, complex frequencies, widths gamma of the average",
  "a test solves for one frequency in one structure; the bound, the unique solvability and the sum rule hold for all structures, and the sum rule integrates over all frequencies",
  ["meanas/fdfd/operators.py:e_full", "meanas/fdfd/operators.py:e2h"])

p("C169", "Symmetry planes: half a structure with a conducting wall simulates the whole",
  "Cut a mirror-symmetric structure at its mirror and simulate one half with e_full, passing a mask that makes the components of E along the mirror in the first plane perfect electric conductor: the half solves the equation iff the odd continuation of field and source solves the equation of the whole; the wave operators correspond entry by entry, e2h gives the same H, and the resonances of the half are those resonances of the whole with odd fields. With the mirror half a cell lower and the components of H along it masked as perfect magnetic conductor (last plane) the same holds for even fields. Away from resonances a source of one parity makes a field of that parity, so the solver run on the half returns the half of the full solution outside conductors. More generally, any part of a grid between two planes on which E_parallel (H_parallel) vanishes can be cut out and closed by the mask.",
  "all grid shapes, axes, mirror-symmetric (complex) cell widths, media, PEC and PMC masks, all frequencies (nonzero for the magnetic wall), fields and sources",
  "which plane and which staggered components have to be masked, and that nothing else changes, is a statement about all structures and sizes; a test compares one pair of runs and both runs may share the off-by-one",
  ["meanas/fdfd/operators.py:e_full", "meanas/fdfd/operators.py:e2h", "meanas/fdmath/operators.py:curl_forward", "meanas/fdmath/operators.py:curl_back"])

p("C170", "How many modes a lossless waveguide guides",
  "Take a k-dimensional space of transverse magnetic trial fields and complete each with hxy2h and hxy2e at some beta0 > 0. If the electric energy always stays below the magnetic energy, operator_e and operator_h have at least k linearly independent eigenvectors with eigenvalues beta^2, beta > beta0, and the modes with mode numbers 0..k-1 all propagate. Hence every lossless non-magnetic cross-section guides at least two modes, and solve_modes returns for mode numbers 0 and 1 a real wavenumber with an effective index of at least the lowest index in the cross-section; on a uniform grid there are at least as many guided modes above beta0 as a homogeneous medium of that lowest permittivity has plane waves (twice, for the polarisations). operator_e and operator_h have equally many independent modes at every nonzero wavenumber.",
  "all cross-section sizes, positive (for the plane-wave count: uniform) cell widths, real positive media, nonzero real frequencies, beta0 > 0 and trial spaces; the equality of multiplicities for arbitrary complex media and widths",
  "a test finds the modes of one waveguide; that mode_number=1 never lands on an evanescent mode, whatever the structure, needs an argument over all structures",
  ["meanas/fdfd/waveguide_2d.py:operator_e", "meanas/fdfd/waveguide_2d.py:operator_h", "meanas/fdfd/waveguide_2d.py:hxy2h", "meanas/fdfd/waveguide_2d.py:hxy2e", "meanas/fdfd/waveguide_2d.py:solve_modes"])

p("C171", "Rows of identical periods: Bragg mirrors, bands and windows",
  "Put N copies of a period (any widths and media in p planes of cells) behind each other in a row of cells with one cell across, and solve e_full without sources around it. The waves behind the copies are the N-th power of one 2x2 matrix of determinant 1 applied to the waves in front; the matrix is the same in every grid, place, axis and for every N. So the reflection and transmission of N copies follow from those of one period, simulated once: 1/t_N = s_N/t - s_(N-1), r_N/t_N = s_N r/t with the Chebyshev numbers s_N of x = (1+t^2-r r')/(2t), also with losses. Bloch waves with factor lam exist exactly for lam^2 - 2 x lam + 1 = 0. For lossless media x = Re(1/t), 1/T_N = 1 + s_N^2 R/T; for |x| >= 1 the transmission falls (exponentially for |x| > 1) and the reflection tends to 1; for |x| < 1 the transmission stays above a bound for all N, and N copies are perfectly transparent at x = cos(k pi/N).",
  "all axes, polarisations, grid lengths, places, periods, numbers of copies, frequencies, complex widths and media (lossless parts: real ones), outer media away from the band edge of the grid",
  "a test simulates one mirror with a few periods; the law for every number of copies and every period needs an argument",
  ["meanas/fdfd/operators.py:e_full", "meanas/fdmath/operators.py:curl_forward", "meanas/fdmath/operators.py:curl_back"])

p("C172", "Scattering parameters of a device between two waveguides",
  "Simulate any device with e_full between two port planes, where it looks like a uniform guide on two planes at each port, and read off the amplitudes of the guide's waves (expanded modes of solve_mode and their mirror images, evanescent ones included). Waves of a lead are orthogonal under sum of (E1 x H2 - E2 x H1) over the faces of a plane, taken with poynting_e_cross_h and the H of e2h, unless the product of their factors per plane is one; in a lossless lead they carry power separately unless one factor times the other's conjugate is one, so evanescent waves carry none. Hence the scattering matrix is reciprocal, N_p S_pq = N_q S_qp with the weights N of the channels, for every device, lossy, magnetic or on a stretched grid. For a lossless device the power of all waves, each counted with its own, is the same at both ports, and S is unitary for waves of unit power.",
  "all shapes, axes, port planes, grids (complex-stretched for reciprocity, real for power), media, frequencies, numbers of channels at each port, fields without currents between the ports",
  "a test simulates one device and compares two numbers up to solver error; that S is reciprocal and power-conserving on the discrete grid for every device, with the library's own cross product and staggered H, is a theorem",
  ["meanas/fdfd/operators.py:e_full", "meanas/fdfd/operators.py:e2h", "meanas/fdfd/functional.py:poynting_e_cross_h", "meanas/fdfd/waveguide_3d.py:solve_mode", "meanas/fdfd/waveguide_3d.py:expand_e"])

p("C173", "Simple waveguide modes continue smoothly when frequency and media change",
  "A mode whose nonzero beta^2 is a simple root of the characteristic polynomial of waveguide_2d.operator_e lies on exactly one branch of modes: beta and the field are real-analytic functions of omega, epsilon and mu together, and every mode of a nearby problem with a nearby wavenumber is on it. In lossless media beta stays real along the branch, so a simple propagating mode can only stop propagating by meeting another mode (or at beta = 0); it carries power, Re P != 0 for the power P of the fields of exy2e and exy2h; and for every small change, also complex, lossy or anisotropic, d beta = sum(areaE |E|^2 (d omega eps + omega d eps) + areaH |H|^2 (d omega mu + omega d mu)) / (2 Re P). So the group velocity formula of C97 holds for every simple mode with no assumption on how modes at neighbouring frequencies were chosen. The same branch exists for the angular wavenumbers of bends (cylindrical_operator).",
  "all cross-section shapes, widths, frequencies, media without zeros (lossless where stated), simple modes",
  "a sweep over frequency with solve_mode shows a finite list of wavenumbers; that they lie on one smooth curve, and what its slope is in all directions of parameter space, is a statement about all neighbouring problems",
  ["meanas/fdfd/waveguide_2d.py:operator_e", "meanas/fdfd/waveguide_2d.py:exy2e", "meanas/fdfd/waveguide_2d.py:exy2h", "meanas/fdfd/waveguide_cyl.py:cylindrical_operator"])

p("C174", "Nondegenerate cavity resonances continue smoothly when the media change",
  "Take a resonance omega0 != 0 of e_full (with PEC and PMC masks, any media, complex-stretched grids included) whose fields are the multiples of one field E0 with integral of eps E0.E0 nonzero. Then every nearby pair epsilon, mu has exactly one resonance near omega0; frequency and field are real-analytic functions of all entries of epsilon and mu, and d omega = -omega/2 (integral d eps E0.E0 - integral d mu H0.H0) / integral eps E0.E0, H0 from e2h. In a lossless cavity a nondegenerate resonance satisfies the integral condition by itself, its frequency stays real as long as the media do, and for every change, also a lossy one, d omega = -omega/2 (integral d eps |E0|^2 + integral d mu |H0|^2) / integral eps |E0|^2. The formulas of C135 thus hold with no assumption on how resonances of neighbouring media were chosen.",
  "all shapes, nonzero (or positive) widths, masks, media without zeros, nondegenerate resonances, all directions of change",
  "a parameter sweep shows finitely many frequencies; that they lie on one smooth branch with a slope given by the unperturbed field alone is a statement about all neighbouring media",
  ["meanas/fdfd/operators.py:e_full", "meanas/fdfd/operators.py:e2h"])

p("C175", "Nondegenerate Bloch bands are smooth in the Bloch vector and the medium",
  "Take a band -omega0^2 != 0 of maxwell_operator of a lossless structure whose eigenspace is one-dimensional, at a Bloch vector where no plane wave of the grid has kx = 0. Then every nearby Bloch vector k0 and medium epsilon (lossy ones included) has exactly one band near omega0, and its frequency and coefficients are real-analytic functions of k0 and of all entries of epsilon. The frequency is real while the medium is lossless, electric and magnetic energies of the fields of hmn_2_exyz and hmn_2_hxyz are equal, and d omega = (flux of Re E x H* through the cell along G dk) / W - omega/2 (sum d eps |E|^2) / W with W = sum eps |E|^2: group velocity and first-order shift from one solution.",
  "all shapes, reciprocal lattices, Bloch vectors with no plane wave of kx = 0, positive epsilon, nondegenerate bands, all directions of change of k0 and epsilon (complex for epsilon)",
  "a band diagram is a finite sample, and eigsolve returns unrelated vectors at neighbouring k; that the bands join into one smooth branch with these slopes is a statement about all neighbouring Bloch vectors and media",
  ["meanas/fdfd/bloch.py:maxwell_operator", "meanas/fdfd/bloch.py:generate_kmn", "meanas/fdfd/bloch.py:hmn_2_exyz", "meanas/fdfd/bloch.py:hmn_2_hxyz"])

p("C176", "The far field follows the near field: superposition, arrays, mirror images, exchange of axes, duality",
  "Without padding, near_to_farfield of any superposition of copies of one near field, moved by whole numbers of cells (as numpy.roll) and multiplied by amplitudes A_j, is the far field of the one copy times the array factor sum A_j exp(-i (kx x_j + ky y_j)); in particular the transform is linear and moving the near field leaves the intensities unchanged. Reflecting the near field in a plane normal to x or y (numpy.flip, E as a vector, H as an axial vector) reflects the far-field vectors built from the returned components and angles, up to the stated phase; transposing the arrays and exchanging dx and dy transposes the far field. The near field (H, -E) gives the far field (H, -E).",
  "all near fields and sizes with at least two samples along x, cell sizes, samples (at and beyond the light cone and at normal incidence included), numbers of copies, amplitudes and displacements",
  "a test compares two transforms of one field; that the combined shifts of halves, axes, angles and component formulas respect every displacement and reflection, also at the samples where the angles are set by hand, is a statement about all fields",
  ["meanas/fdfd/farfield.py:near_to_farfield"])

p("C177", "The modes of a waveguide are complete",
  "In a uniform section of waveguide (whole cross-section, media and spacing constant along the axis) whose modes, the eigenvectors of waveguide_2d.operator_e, form a basis with no mode at cutoff, every field that solves the source-free 3D equation e_full E = 0 on the planes i..j is on those planes a superposition of the modes travelling forwards and backwards; each mode has the profile that exy2e gives and advances from plane to plane by exp(-i k d) or exp(i k d) with k the wavenumber waveguide_3d.solve_mode computes from its eigenvalue; the amplitudes are unique. Consequently the field at a port of a device (C172) is always a sum of waves of the lead. Distinct eigenvalues are enough for the basis.",
  "for all axes, grid shapes, cross-sections with arbitrary complex non-zero media and arbitrary transverse widths, all section lengths, all frequencies without a mode at cutoff or at the end of the discrete dispersion ((k d)^2 = 4), and all source-free fields",
  "a statement about every solution of the equations on every grid; a test can decompose a few simulated fields",
  ["meanas/fdfd/waveguide_2d.py:operator_e", "meanas/fdfd/waveguide_2d.py:exy2e", "meanas/fdfd/waveguide_3d.py:solve_mode", "meanas/fdfd/operators.py:e_full", "meanas/fdfd/operators.py:e2h"])

p("C178", "Overlap integrals read off the amplitudes of the modes",
  "Where a device looks like a uniform waveguide next to plane i (modes forming a basis, none at cutoff), a source-free field is on the planes i, i+1 the superposition of the modes whose amplitudes are the reciprocity integrals sum(E x H_n - E_n x H) over the faces after plane i, formed with poynting_e_cross_h and e2h, of the field with the mode of the opposite direction, divided by the same integral of the two directions of the mode; that weight is never zero. The modes form a port in the sense of C172. The integrals determine the tangential fields of any field, source-free or not. Degenerate modes have to be orthogonal, and can always be chosen so.",
  "for all axes, grid shapes, cross-sections with arbitrary complex non-zero media, also lossy and magnetic, arbitrary transverse widths, all planes, all frequencies without a mode at cutoff or at the end of the discrete dispersion, all fields",
  "a statement about every source-free field and every mode of every cross-section, including the non-vanishing of a divisor; tests can only try a few guides and fields",
  ["meanas/fdfd/functional.py:poynting_e_cross_h", "meanas/fdfd/operators.py:e2h", "meanas/fdfd/operators.py:e_full", "meanas/fdfd/waveguide_2d.py:operator_e", "meanas/fdfd/waveguide_2d.py:exy2e", "meanas/fdfd/waveguide_2d.py:exy2h", "meanas/fdfd/waveguide_3d.py:solve_mode"])

p("C179", "A device has exactly one scattering matrix unless it traps a field",
  "Between two uniform waveguides (cross-sections, axial cell sizes and media may differ; modes forming a basis, none at cutoff) every choice of the incoming mode amplitudes at the two ports belongs to exactly one field that e_full sends to zero between them, if and only if there is no trapped field (a non-zero field with outgoing modes only). Without trapped fields the device has exactly one scattering matrix in the sense of C172 and it gives the outgoing amplitudes of every such field. A straight piece of guide traps nothing and its matrix transmits every mode into itself. A passive device that absorbs everywhere between the ports traps nothing if outgoing waves carry no power inwards. The power the waves carry away is what they bring plus 2 omega times the sum of Im(epsilon)|E|^2 + Im(mu)|H|^2 over the device.",
  "for all axes, grid shapes, devices with arbitrary complex epsilon and non-zero mu and arbitrary widths between the ports, all positions of the ports, all amplitudes, all fields; all frequencies without a mode at cutoff or at the end of the discrete dispersion (the power statements: real frequencies)",
  "existence and uniqueness of the solution of an open problem for every device and every incoming field; tests can only solve for a few devices, and with absorbing boundaries instead of ports",
  ["meanas/fdfd/operators.py:e_full", "meanas/fdfd/operators.py:e2h", "meanas/fdfd/functional.py:poynting_e_cross_h", "meanas/fdfd/waveguide_2d.py:operator_e", "meanas/fdfd/waveguide_2d.py:exy2e", "meanas/fdfd/waveguide_3d.py:solve_mode"])

p("C180", "Scattering matrices of devices in a row combine; ports can be moved along their guides",
  "Two devices joined by a piece of uniform waveguide, each without trapped fields and with scattering matrices A and B (C179): the combination traps no field if and only if 1 - A22 B11 (A22 the reflection of the first back to the joint, B11 that of the second) is invertible, and its scattering matrix is then the Redheffer product of A and B. Moving either port along its guide, outwards or inwards, changes neither whether there are trapped fields nor the scattering matrix (the mode phases being part of the waves). A piece of guide of any length inside a simulation traps nothing, its matrix passes every mode on, and cascading with it changes nothing.",
  "for all axes, grid shapes, pairs of devices with arbitrary complex epsilon and non-zero mu and arbitrary widths, three different guides at the three ports, all positions of the ports, either sign convention for incoming; all frequencies without a mode at cutoff or at the end of the discrete dispersion",
  "relates solutions of three different open problems for all devices and all incoming fields; tests can only compare a few simulations, and only up to reflections of absorbing boundaries",
  ["meanas/fdfd/operators.py:e_full", "meanas/fdfd/waveguide_2d.py:operator_e", "meanas/fdfd/waveguide_2d.py:exy2e", "meanas/fdfd/waveguide_3d.py:solve_mode"])

p("C181", "Scattering matrices are reciprocal, and conserve power for lossless devices, with all modes kept",
  "The scattering matrix T of C179, evanescent modes included. Reciprocity: for any device (lossy, magnetic, any grid) there are weights N of the modes, none of them zero, with N_p T_pq = N_q T_qp. Power: in a lossless guide a mode whose factor from plane to plane is not of modulus one carries no power; a travelling mode always carries power, never zero, and the opposite power in the other direction. For a lossless device between lossless guides, sum_n N_n T_np conj(T_nq) is N_p for p = q and zero otherwise for all travelling channels p, q, N being the power the outgoing modes carry away; so T between travelling modes of unit power is unitary, however many evanescent modes there are. Modes with one wavenumber can always be chosen so that no two of them carry power together.",
  "for all axes, grid shapes, devices and widths, all positions of the ports, any basis of modes of either guide (modes with one wavenumber chosen orthogonal), either convention for incoming; the power statements: real frequencies, widths and media, evanescent outgoing waves decaying away from the device",
  "identities between all entries of matrices of any size, for every device; a test can only compare a few simulated entries up to the error of its absorbing boundaries",
  ["meanas/fdfd/operators.py:e_full", "meanas/fdfd/operators.py:e2h", "meanas/fdfd/functional.py:poynting_e_cross_h", "meanas/fdfd/waveguide_2d.py:operator_e", "meanas/fdfd/waveguide_2d.py:exy2e", "meanas/fdfd/waveguide_2d.py:exy2h"])

p("C182", "The operator matrices are sparse: thirteen entries per row, nine for the mode operators",
  "Every row and every column of e_full and h_full has at most thirteen nonzero entries, with and without PEC and PMC cells: the equation of a field component involves the component itself, its four neighbours in the plane across it, and the four nearest positions of each of the other two components. So the number of stored entries is at most thirteen times the number of field components and memory grows linearly with the number of cells. On grids with three or more cells along each axis all twelve entries besides the diagonal do differ from zero, whatever the widths, frequency and media (no cancellation, no smaller pattern). e2h and m2j have at most four entries per row, eh_full at most five, waveguide_2d.operator_e and operator_h at most nine.",
  "for all grid shapes, complex widths, frequencies, media and masks (sharpness: nonzero widths and permeability, at least three cells per axis, no masks)",
  "a bound on every row of matrices of any size; a test can count entries of a few matrices only",
  ["meanas/fdfd/operators.py:e_full", "meanas/fdfd/operators.py:h_full", "meanas/fdfd/operators.py:eh_full", "meanas/fdfd/operators.py:e2h", "meanas/fdfd/operators.py:m2j", "meanas/fdfd/waveguide_2d.py:operator_e", "meanas/fdfd/waveguide_2d.py:operator_h", "meanas/fdmath/operators.py:curl_forward"])

p("C183", "The energy of a pulse splits into frequencies: the flux of an FDTD run is the frequency integral of the FDFD Poynting vector",
  "Take a record of fields from an FDTD run that starts at rest and fades, transform E at whole and H at half steps, and evaluate fdfd.functional.poynting_e_cross_h(dxes)(E(w), conj H(w)) at one face of the grid. Then the energy that passed that face, dt times the sum over all steps of fdtd.poynting of the two pairs of neighbouring half steps, is exactly 2/pi times the integral of cos(w dt/2) Re S(w) over the frequencies from 0 to pi/dt. The same holds for the work done by the currents. The discrete steps enter only through the factor cos(w dt/2). For complex records and records that must be damped by exp(-gamma t) to be summable the two kinds of half step give the integrals with exp(-i w dt/2) and exp(+i w dt/2). For a run below the stability limit with currents that stop, any damping gamma > 0 will do, E is then the only solution of e_full at the frequency 2 sin(w dt/2)/dt, and H is e2h of E: broadband FDTD and single frequency FDFD give the same energy on each face. With CPML layers the same is true of e_full with the stretched coordinates of the layers.",
  "for all grid shapes, real or complex widths, media, currents, time steps (C183_run: below the stability limit), faces and record lengths; fields summable with weight exp(-gamma t)",
  "an identity between an infinite sum over time and an integral over all frequencies; tests compare a few frequencies to a tolerance",
  ["meanas/fdtd/energy.py:poynting", "meanas/fdfd/functional.py:poynting_e_cross_h", "meanas/fdtd/base.py:maxwell_e", "meanas/fdtd/base.py:maxwell_h", "meanas/fdtd/pml.py:updates_with_cpml", "meanas/fdfd/operators.py:e_full", "meanas/fdfd/operators.py:e2h"])

p("C184", "Width lists and media of the wrong shape are refused, the others mean what they say",
  "curl_forward, curl_back, maxwell_e, maxwell_h and fdtd.poynting return exactly if every list of widths has one entry per cell along its axis or one entry for all cells, and (updates) the medium can be repeated by numpy to the shape (3, nx, ny, nz) of the field; then the result is that of the documented formula with the widths and the medium meant. A number, an array with one value per cell, an array of shape (3, 1, 1, 1) and a full field are accepted as media and have the expected meaning; every other shape that cannot be repeated raises. The matrix operators and energy functions should refuse the same inputs.",
  "for all grid shapes, width lists of any length, media of any rank and shape, fields and time steps",
  "acceptance depends on all combinations of lengths; a test tries a few, and a shape accepted by accident gives a result without any error",
  ["meanas/fdmath/functional.py:curl_forward", "meanas/fdmath/functional.py:curl_back", "meanas/fdmath/functional.py:deriv_forward", "meanas/fdtd/base.py:maxwell_e", "meanas/fdtd/base.py:maxwell_h", "meanas/fdtd/energy.py:poynting", "meanas/fdtd/energy.py:delta_energy_j", "meanas/fdtd/energy.py:dxmul", "meanas/fdmath/operators.py:curl_forward"])

p("C185", "With all modes kept, eigenmode expansion is exact",
  "If the list of modes on the left of an interface contains all modes (every transverse E field is a sum of them, they are orthogonal and none has zero weight), then the fields on both sides can be joined for every incident wave exactly if no field can live at the interface without an incident wave; then there is exactly one way to join them, and get_tr should return its transmitted and reflected amplitudes, and get_abcd (both sides complete) the matrix that takes the amplitudes of the waves on the left to those on the right.",
  "for all cross-sections, numbers of modes, media, grids with nonzero cell areas, and incident amplitudes",
  "exactness is a statement about all fields and all incident waves; a test compares a few numbers and cannot tell a truncation error from an error of the method",
  ["meanas/fdfd/eme.py:get_tr", "meanas/fdfd/eme.py:get_abcd", "meanas/fdfd/waveguide_2d.py:inner_product"])

with open(os.path.join(os.path.dirname(os.path.abspath(__file__)), '..', 'properties.jsonl'), 'w') as f:
    for q in P:
        f.write(json.dumps(q, ensure_ascii=False) + '\n')
print(len(P))
