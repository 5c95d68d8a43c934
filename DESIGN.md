# Formal model of meanas — design

The properties are listed in `properties.jsonl` (C01 …). This file says how each one is modelled and
proved, what is trusted, and where the code disagrees with the property. `MANIFEST.json` gives the
theorem names; `seeded/LOG.jsonl` records the mutation experiments.

## 1. Trusted base

* Lean 4.33.0's kernel, and the three standard axioms `propext`, `Classical.choice`, `Quot.sound`
  (the axioms of each property theorem are listed in section 6). No `sorry`, no extra axioms, no
  `native_decide`, no `bv_decide`.
* The reading of the Python source. Every model definition cites file and lines of /repo. The code was
  read, not run.
* The following idealisations, shared by all modules:
  * **Exact arithmetic.** float32/float64/complex128 values are elements of a field `K` (all identities
    that need no order or analysis hold for every field, in particular ℝ and ℂ), or of ℝ / ℂ where
    order, `exp`, `sqrt`, conjugation are needed. Rounding, overflow and dtype casts are not modelled
    (exception: C151 models integer/floating/complex number types and their casts, Model/Typed.lean).
    Where NaN/inf matter to a property (gaussian_beam, far_to_nearfield, zero thickness PML)
    a not-a-number value is modelled explicitly as `none`.
    Exception: C138 models the FDTD updates with a rounding error in every operation (Model/FdtdFloat.lean: any result within a relative
    error `u`; no overflow or underflow).
  * **Division.** Lean's `x / 0 = 0` differs from numpy's inf/nan. Property theorems that depend on
    division carry the nonzero hypotheses under which numpy's and Lean's division agree; the
    finite-difference identities that hold without them are stated without.
  * **numpy primitives** are modelled by their documented meaning: `roll`, `ravel`/`reshape` (C order),
    `cumsum`, `argsort`, slices, broadcasting of length-1 axes, fancy assignment, in-place operators
    (as functions returning the new value; aliasing is modelled only where a property is about it:
    C33, C62).
  * **scipy sparse matrices** are modelled as `Matrix` (row index → column index → value);
    `block_array`, `diags_array`, `@`, `.T` by their mathematical meaning. Where the type of an argument
    makes scipy raise, that is modelled: `.H` of sparse arrays (C32), a scalar operand of `@` (C24), dense blocks
    given to `block_array` (C154). These three facts about scipy >= 1.14 are taken from its documentation
    and source as remembered; scipy is not installed here.
  * **External numerical routines** (`qmr`, `eigs`, `lstsq`, `svd`, `spsolve`, `pinv`, `fftn`, `root_scalar`) are
    parameters. Whatever contract a theorem needs about them is a visible hypothesis of that theorem.
    (`fftn`/`ifftn` are additionally defined by their sums and the contract proved for them.)

## 2. Representation

* An array of shape `sh : Fin d → ℕ` over `K` is a function `((a : Fin d) → Fin (sh a)) → K`; a vector field
  is `Fin 3 → …`. All sizes are universally quantified (zero-size axes included unless stated).
* `numpy.roll` is modelled with integer modular index arithmetic.
* Flattened vectors are functions on `Fin (∏ shape)`; the C-order position formula is defined arithmetically
  and proved to be a bijection (C02). fdmath's sparse operators are modelled on flattened indices,
  with the error branches of the constructors as `Except` values (C01, C03, C04). The FDFD operators are modelled
  as matrices indexed by `(component, cell)`, i.e. modulo the C-order bijection of C02; this simplification is
  stated in their comments.
* `dxes`, `mu = None`, `epsilon` scalars: `Option` arguments, same branches as in the code.

## 3. Layout

`lean/Verif/Model/*` — definitions only, one file per Python module, each definition citing its source.
`lean/Verif/Spec/*` — independent specifications used in the statements (grid calculus, Maxwell equations, …).
`lean/Verif/Lemmas/*` — helper lemmas. `lean/Verif/Props/*` — the property theorems and, beside each, an `example`
showing that its hypotheses are satisfiable by a non-trivial instance.

## 4. Plan per property

| id | modelled | proof |
|----|----------|-------|
| C01 | fdmath.functional and fdmath.operators, flat indices | refinement: mulVec of flat operator at C-order position = functional value |
| C02 | vec, unvec | bijectivity of C-order index by induction on dimension; explicit formula |
| C03 | shift_circ incl. errors and the transpose branch | modular arithmetic; group action laws |
| C04 | shift_with_mirror incl. errors | case analysis on reflected index, omega |
| C05 | functional curls/derivs | commutation of shifts along different axes |
| C06 | same | reindexing sums by the shift bijection; weighted version |
| C07 | curl parts | algebra |
| C08 | avg_*, vec_cross | matrix algebra |
| C09 | fdtd.base step functions, operation lists | induction over operation list using C05 |
| C10 | fdtd.energy | algebraic identity when dx_e = dx_h (`_partial`); witness of failure when dx_e ≠ dx_h; corrected Yee-volume identity for all grids |
| C11 | run of steps with currents | telescoping (C17) + C10, induction |
| C12 | run of steps over ℝ | discrete energy is a positive definite invariant below the bound; uses norm bound of curl |
| C13–C16 | run of steps | induction over steps; relational invariants |
| C17 | poynting, poynting_divergence with Option args | telescoping sum; error branch |
| C18 | conducting_boundary with tuple-index semantics; list-index behaviour of numpy ≥ 1.23 modelled as an error | function-update reasoning |
| C19 | cpml_params over ℝ with `Real.rpow`, `Real.exp` | inequalities |
| C20, C21 | updates_with_cpml incl. psi state | unfolding; induction over the call history; witness for dx_e ≠ dx_h |
| C22, C23 | misc.py over ℝ/ℂ, NaN explicit | real analysis; witness for the one_sided claim and for the waist plane |
| C24 | fdfd.functional, fdfd.operators | refinement per operator; witness for e_full with mu and m2j |
| C25 | e_full_preconditioners | W·Ch = Ceᵀ·V, then matrix algebra |
| C26–C29, C34 | fdfd.operators | matrix algebra; locality of stencil |
| C30 | e_boundary_source | slab masks: equality (`_partial`); corner witness |
| C31 | poynting operators | componentwise; summation by parts |
| C32, C33 | solvers.generic as a state transformer over the options dict; callback closure with fuel | matrix algebra; non-termination for every fuel |
| C35, C36 | fdtd + fdfd | trigonometric identities, eigen-relations |
| C37, C38 | scpml over ℝ/ℂ | index case analysis; NaN witness at thickness 0 |
| C39–C41 | waveguide_2d operators as block matrices | algebra using commuting derivatives |
| C42–C44 | normalisation, inner_product, orthogonality | algebra; shape-level model of trapezoid for the error |
| C45 | sensitivity | first-order perturbation of the eigen equation with explicit left eigenvector; uniform cell areas (`_partial`) |
| C46, C66 | selection logic with eigensolver oracle | order theory on sorted lists |
| C47–C49 | waveguide_cyl | same technique as C39; weighted mean |
| C50–C54 | waveguide_3d | permutation algebra; exponentials; slice semantics |
| C55–C57 | eme with svd/lstsq oracle | matrix algebra |
| C58–C62 | bloch | vector algebra; DFT unitarity; array-state model for the mutation claim |
| C63, C64 | farfield | pointwise algebra; NaN modelled as `none` |
| C65 | eigensolvers as iterations | induction over iteration count |
| C67 | ricker_pulse; the root is whatever scipy returned | negation: the delay makes the amplitude at step 0 exceed turn_on for every root |
| C68 | both SCPML constructors on unit cells | exact relation for the front layer; witness of the difference |
| C69 | inner_product of two modes | orthogonality (C44) when the widths agree; witness otherwise |
| C70 | solve_mode (2D and bends) with Python's argument binding | case analysis on the call |
| C71 | power_iteration | the estimate as a rational function of powers of eigenvalue ratios; limit |
| C72 | dxes2T radii | difference operators applied to r; witness |
| C73, C74 | normalized_fields_e and solve_modes of waveguide_cyl | as C42, C46 |
| C75 | maxwell_operator with hmn_2_hxyz | vector algebra in the (m, n) basis |
| C76 | trq with four arrays changed in place | computation of the four overlaps for y polarised fields |
| C77, C78 | eigsolve: one pass, the loop, the recovery; numpy/scipy routines as an oracle with a contract | matrix algebra; invariants of the loop |
| C79 | find_k | the type error always occurs |
| C80 | near_to_farfield for a plane wave spectrum | pointwise algebra in the spherical basis |
| C81 | near_to_farfield incl. padding | the shifted FFT as a Fourier integral about the array centre |
| C82 | e_full, h_full, generic | volume-weighted symmetry of the operators |
| C83 | e_full, generic | imaginary part of the weighted quadratic form; injectivity on a finite space |
| C84 | e_full, h_full, e2h, m2j, FDTD steps | scaling of the difference quotients |
| C85 | difference operators, e_full, e2h, FDTD steps | a shift along one cell is the identity |
| C86 | e_full, e2h with masks | commutation of shifts and differences |
| C87 | gaussian_beam | closed form with the complex beam parameter; derivatives of it |
| C88 | cpml_params, region | integral of the power profile; placement of cells in the layer |
| C89 | maxwell_operator with mu, array shapes; inverse_maxwell_operator_approx with mu, values on cubic grids | numpy broadcasting rules; false: every case of the first raises, the second is zero on one cell |
| C90 | curls, e_full, e2h, FDTD run | curls written with the Levi-Civita symbol; sign of a permutation |
| C91 | the same | reflection of indices about a lattice plane, offset one cell for the staggered samples |
| C92 | FDTD run on uniform grids | the checkerboard field and its curl of curl; recurrence r + 1/r = 2 - s of its amplitude; boundedness below the limit from C13 |
| C93 | near_to_farfield | Parseval's identity for the shifted transform; spectra as complex plane waves u, e, u x e; Re(E x H*) |
| C94 | waveguide_3d.solve_mode including the 2D call | C46 for the requested eigenvalue, C50 for the rotation, C51 for the expansion; ARPACK by contract |
| C95 | objects of the caller in a heap indexed by references | the functional models give the contents; concrete witnesses where an argument is overwritten |
| C96 | operator_e, exy2e, exy2h, inner_product | reciprocity of a mode with its complex conjugate (Lorentz), real and imaginary parts |
| C97 | the same | reciprocity of the modes at two frequencies, limit of the difference quotient; continuity of the reconstructed fields |
| C98 | operator_e | div H = 0 and summation by parts give sum of \|curl H\|^2 >= beta^2 sum of \|H\|^2; equal energies from C96 |
| C99 | eigsolve's initial loop, with a stream of random blocks and a bound on the passes | Gram matrices: one orthonormalisation suffices; rank bound for too many modes |
| C100 | e_full, e2h, eh_full, poynting_e_cross_h | local Poynting identity; inner faces of a set of cells cancel |
| C101 | updates_with_cpml as a state machine with its auxiliary fields, cpml_params | auxiliary fields of a harmonic state are forced; reduction to C35 on the stretched grid |
| C102 | exy2e, exy2h, normalized_fields_e, operator_e | values of the reconstruction with −β, C39 for both signs, C42 for the direction; conjugation of the mode equations |
| C103 | e_full, e2h, generic | symmetry of the weighted system (C31) applied to two media; derivative from the exact formula by continuity of the inverse |
| C104 | deriv_forward/back, curl_forward/back, maxwell_e, maxwell_h; smooth fields, samples and Maxwell's equations as a separate specification (Spec/Smooth) | Taylor remainder by three mean-value arguments; values of the operators (C01); periodicity at the wrap |
| C105 | maxwell_e, maxwell_h as state machine | the conserved energy of C12 is a squared norm (triangle inequality by the discriminant), equivalent to the energy norm below the time-step bound; sum of the defects of C104 |
| C106 | e_full, e2h, m2j, generic | real and imaginary part of the quadratic form of e_full bound the field and its curl; residual of the samples from C104, the magnetic one as m2j current |
| C107 | maxwell_e, maxwell_h with injections, poynting, poynting_divergence, energy_hstep, delta_energy_j | local Poynting theorem of C10 summed over the cells and steps; inner faces cancel by reindexing the shift |
| C108 | e_full, e2h with masks, uniform_grid_scpml | conjugation commutes with every factor; uniqueness for the quadrature statement |
| C109 | generate_kmn, maxwell_operator, hmn_2_exyz, hmn_2_hxyz | reversal of the plane-wave index with the signs the frame picks up; counterexample for even grids from the vacuum bands |
| C110 | generate_kmn, maxwell_operator, hmn_2_exyz, hmn_2_hxyz | shift theorem of the FFT; homogeneity of the frame vectors |
| C111 | maxwell_operator as a matrix (C59) | quadratic form with 1/epsilon; min-max comparison of sorted eigenvalues (Lemmas/MinMax) |
| C112 | eigsolve (Model/BlochSolve) | the returned values diagonalise the operator compressed to an orthonormal block; Poincaré separation (Lemmas/MinMax); expansion in eigenvectors for the residual |
| C113 | `maxwellOperator`, `hmn2exyz`, `hmn2hxyz` of Model/Bloch | curl equations of the returned fields (C75), antihermiticity of `k x`, Parseval; limit of the two-mode identity |
| C114 | `getTr` of Model/Eme with contracts for lstsq and svd | Moore-Penrose inverse commutes with transposition; uniqueness of functions of singular values; bilinearity of the overlap |
| C115 | FDTD runs with electric and magnetic currents, the FDFD operators and their transforms | summation by parts of the transformed updates; C12 for boundedness of the tail; growth of a null vector's run (C35) against C12 for uniqueness |
| C116 | FDTD runs with electric and magnetic currents (the scripts of C115), convolutions of records | Ampere and Faraday updates, summation by parts (C06), symmetry of discrete convolutions; cancellation of the pulse for point sources |
| C117 | Plane-wave runs and FDFD plane waves of C36 | sinc(u+v) <= sinc u sinc v gives concavity of sin^2(sqrt) and Jensen's inequality with the Courant weights; Taylor bound of the sine; arcsin for existence and uniqueness |
| C118 | The loop of rayleigh_quotient_iteration (Model/Eigensolvers) | Kahan's argument: the new residual is an inner product with the old one; spectral theorem for the distance to the spectrum; splitting along the eigenvector for the cubic rate |
| C119 | get_tr, get_s (Model/Eme) | overlaps of the matched fields give R symmetric and T^T T = 1 - R^2, so T is invertible and -T R T^-1, T^T match from the right; uniqueness of the matching makes the matrices real; witness on one cell |
| C120 | cpmlCycle iterated from rest with a current per step | sum the recursion of the auxiliary fields and both updates term by term (C21), eliminate H; growth bound for the convergence |
| C121 | operatorE/H, hxy2h, hxy2e on real positive media | compactness in (1/β, field): smallest 1/β with non-positive excess of curl energy is attained, its field is stationary, hence a mode; uniform trial field for existence, C96 equipartition for monotonicity |
| C122 | operatorE, exy2e, exy2h as in C39 | C97 gives the derivative as energy over power; the power is bounded by the energy cell by cell (E_x and H_y share a sample), then the mean value inequality |
| C123 | operatorE, exy2e, exy2h, e2h as in C39 | one theorem for all changes of the cross-section that respect the four differences of the Yee grid (CrossMap), then translation, mirror image and exchange as instances; scaling directly; parity from the involution |
| C124 | `e_full` as matrix, `generic` with a solver parameter; resonances as frequencies with a source-free field | the squares are eigenvalues of a Hermitian pencil with positive diagonal (volume times epsilon); simultaneous diagonalisation and a dimension count proved in Lemmas/Pencil.lean |
| C125 | fdtd/base.py:59-135, fdfd/operators.py:40-96 | Eliminating H gives a second-order recursion of the stiffness and mass matrices of e_full; simultaneous diagonalisation, boundedness (C12) excludes linear growth, geometric sums give the spectrum. |
| C126 | fdtd/boundaries.py:12-71, fdtd/base.py:59-135 | Symmetric fields stay symmetric on the doubled grid (as C91, mirror at half a cell); derivatives inside the walls agree, the updaters restore the image in the outer layers; induction over the calls. |
| C127 | fdfd/waveguide_3d.py:159-252 | The sums factor into the planes of the window and the mode slice; exact magnitude, lower bound for the reversed mode, and a cross-section with two exact modes as counterexample. |
| C128 | fdfd/bloch.py:591-739 | Exact difference quotient of the trace along a line of blocks; strict descent through an angle slightly below π; after an exact line search the gradient is orthogonal to the last direction (local minimum over all real combinations), so the passes between resets descend too; the quadratic form of the preconditioner is a weighted sum of squares. |
| C129 | fdfd/operators.py:40-96, fdtd/base.py:59-135, fdmath/operators.py:158-185 | Second-order consistency of the two curls (C104) gives residuals of the first-order equations; expanding in the resonant fields of the pencil of C124 and Bessel's inequality for their curls bounds the distance to the near resonances; samples of a non-zero periodic field keep a positive norm on fine grids. |
| C130 | fdfd/waveguide_2d.py:151-296, 432-560, 563-640 | Second-order consistency of the differences along x and y (the derivative along z is exact); the two curls at fixed beta are adjoint for the cell areas, so expanding in the modes of the resulting pencil bounds the distance to near modes; samples of a non-zero wave keep a positive norm; modes give eigenvectors of `operator_e` (C41). |
| C131 | fdfd/operators.py:40-96, fdfd/waveguide_2d.py:151-296, fdfd/bloch.py:183-273 | The discrete Fourier transform turns the differences into multiplications; a non-zero field has a non-zero coefficient, whose equation gives the value; plane waves give the converse. |
| C132 | fdmath/functional.py:15-61, fdmath/__init__.py:42-108, 505-700 | The positions are partial sums of the widths; the differences are computed exactly; the limit under refinement by the definition of the derivative. |
| C133 | fdtd/base.py:66-186, fdfd/operators.py:40-135, fdfd/solvers.py:67-136, fdmath/functional.py | H samples are corrected by second derivatives times squared widths, which cancels the first-order part of the backward differences; the corrected samples satisfy the discrete equations to second order and C105/C106 stability carries this to the solution. |
| C134 | fdfd/operators.py:40-135, fdfd/functional.py:poynting_e_cross_h, fdfd/waveguide_3d.py | The local Poynting identity of C10 applied to mixed pairs of fields, Maxwell's equations recovered in the cells where eFull holds, and discrete Gauss. |
| C135 | fdfd/operators.py:40-135 | The equation of each resonant field tested with the other one (weighted symmetry of C25); the derivative is the limit of the exact identity; conjugates by time reversal (C108); decay from the quadratic form of C83. |
| C136 | fdfd/bloch.py:183-273, 276-314 | hip_maxwell (the operator is minus the square of one map with weight 1/eps) applied to both modes; limit of the exact identity. |
| C137 | eme.py get_tr, get_abcd, get_s with numpy.linalg through contracts | least squares solution, pseudo-inverse and clipped matrix are unique, hence follow unitary changes of basis; counterexample for force_reciprocal |
| C138 | base.py and functional.py operation by operation with rounded results (Model/FdtdFloat.lean) | error of one step bounded by the sizes of its terms, these by six derivative bounds in the energy norm, sum over steps by C105 and a discrete Gronwall argument |
| C139 | gaussian_packet, ricker_pulse (Model/Misc.lean) | Fourier integral of the gaussian; integration by parts for the Ricker pulse; strict inequality x+1 < exp x for the peak |
| C140 | cylindrical_operator, dxes2T and the straight operators | matrix identity by action on vectors; equivalence of the two curl systems by multiplying each equation with its radius; C44, C96, C97, C121, C122 for the equivalent medium |
| C141 | the update functions and scripts with currents | two-media version of the reciprocity balance of C116; continuity of runs in the media by induction on the steps; limit of the exact difference |
| C142 | e_full and e2h with masks | basis of resonant fields from the diagonalisation of the weighted operator with the cells of the conductor moved to -1; the reactive power becomes a finite sum of simple poles, whose derivative, signs at the poles and zeros are computed |
| C143 | cpml_params, update_E, update_H, both layers, auxiliary fields | the auxiliary field is shown to stay proportional to the field; a discrete energy with loss terms; decay by a limit-point argument: a state that loses nothing alternates in the layer, hence in the next cell, hence everywhere, hence is zero |
| C144 | e_full on thin grids, scpml widths | summation by parts gives the power balance with complex widths; imaginary parts of one sign force E and its flux to vanish in one cell of the layer, then cell by cell around the ring; signs of the widths from the profiles |
| C145 | e_full, e2h, m2j, poynting_e_cross_h, FDTD runs with currents | linearity in epsilon and 1/mu; C100 applied to scattered and total field; induction over time steps |
| C146 | e_full on grids one cell thick across the axis (from C144) | second difference of exponentials; the rows of the interface cell and its neighbour fix t and r; q1 - q2 = (q1^2 - q2^2)/(q1 + q2) for the bound |
| C147 | the existing models of e_full, h_full, the FDTD script and the waveguide operators | a derivative of a field moved one cell back is the derivative of the other kind; sum over the Levi-Civita form of the curls |
| C148 | the FDTD scripts of C09-C16 | summation by parts; orthogonal decomposition into curls and curl-free fields; the remainder of a static field is the difference of one step of another run, whose sum telescopes |
| C149 | `e_full`, `h_full`, `e2h`, `generic` | incidence of edges and faces is defined from the grid geometry alone; the curls only see incident positions; uniqueness from C83 |
| C150 | `maxwell_e/h`, `e_full`, `h_full`, `e2h`, `m2j`, the SCPML constructors, `operator_e` | the curls turn edge voltages into face fluxes without any widths, so the widths move into the media |
| C151 | Model/Typed.lean: arrays carry integer/floating/complex kinds, `out[i] = v` casts, `out op= v` checks same-kind casting | case analysis on kinds; closure of the kinds under -, *, /; witnesses for the real-part cases |
| C152 | Model/Scpml.lean, Model/Fdfd.lean (no new definitions) | exact wave on the complex coordinate, midpoint (Taylor) residuals on both lattices of order w^3 per cell, discrete stability along the layers, continuation of the path around the wrap, then closing the loop with the Green function of the infinite lattice |
| C153 | stretch_with_scpml grids in e_full with any number of cells across | curl curl = grad div - div grad across the axis, transverse Fourier components, the uniform layer bound of C152 with ρ cos θ, and a kernel argument with joint eigenvectors of the transverse shifts |
| C154 | eme.py get_abcd with scipy's check of the table of blocks, numpy's rule for the axes of a nested sequence | induction over the table; case split over the results of get_tr |
| C155 | Python slice objects with optional integer bounds, Python's reading of a bound, compute_source and compute_overlap_e on them (Model/Waveguide3dSlices.lean) | both functions compared with the window model of C53; case analysis on the bounds |
| C156 | _scipy_qmr's use of the value returned by scipy's qmr (Model/SolversQmr.lean), generic as in C32 | the preconditioners are diagonal with modulus squared equal to the cell volumes; error bound from the energy bound of C83 |
| C157 | existing FDTD and FDFD models on shape N*sh | curls commute with tiling and with folding (sum over the copies), because the remainder of an index commutes with the wrapped shift |
| C158 | existing Bloch model on shape N*sh | sectors of plane waves form a bijection (fftfreq_subIdx); division by a periodic function does not mix sectors (orthogonality of the sector phases over the copies) |
| C159 | existing Bloch model | Courant-Fischer comparison of square roots of eigenvalues through the contraction that re-expands fields in the transverse basis of the other Bloch vector; triangle inequality in the norm weighted with 1/epsilon; Parseval |
| C160 | existing FDFD and solver models | Parseval in the orthonormal basis of resonant fields (C142) applied to the field and to its residual; perturbations as polarisation currents (C145) |
| C161 | existing e_full model in one dimension (as C146) | discrete Wronskian and discrete energy flux along the row; uniform parts by the two-term recursion; existence from the recursion in the row with injectivity from power |
| C162 | existing model of the main loop of eigsolve | the negated test gives a contraction of E + 5e-8 at each pass; logarithms; C128_defined for the passes of one mode |
| C163 | existing model of the main loop of eigsolve | monotone convergence of the objective; compactness of the normalised blocks; continuity of the gradient, so that the search from the limit would do better than the limit if it were not invariant |
| C164 | maxwell_operator as in C59 applied to a sampled permittivity function; specification: modes of Maxwell's equations as Fourier series (BandMode), written without any function of the model | aliasing of the Fourier series on the grid bounds the residual of the sampled mode by the tail of the series; a spectral cluster lemma for Hermitian matrices turns residuals into eigenvalues with multiplicity; independence on finitely many plane waves by minimal kernels |
| C165 | maxwell_operator and hmn_2_hxyz as in C59, C61 on a sequence of grids with a sampled permittivity function; specification: WeakMode, the curl-curl equation on all plane waves of the crystal | division by the sampled permittivity is a cyclic convolution with the coefficients of 1/eps; the quadratic form bounds the energy; compactness of the coefficients, dominated convergence of the convolution, and the energy bound on short waves for independence |
| C166 | operator_e, exy2e, exy2h, cylindrical_operator (existing models) | reciprocity of a mode with the conjugate of its own mirror image gives the identity; with C97 and C140 the group index; the mean value theorem for the effective index |
| C167 | e_full and h_full as in C02 and C147; grid layered along an axis; row of cells with lowered permittivity | curl-curl of a single component split into two axes, the transverse difference evaluated on the phase factor; C146 and C161 applied to the row; arsinh for the decay |
| C168 | e_full and e2h at complex omega as in C24 and C124; driven fields as in C142 | quadratic form of e_full divided by omega, imaginary part; Cauchy-Schwarz; expansion in resonant fields, partial fractions, integral of the Lorentzian, Parseval |
| C169 | e_full, e2h with masks as in C24, C28; half grid, its masks and the mirror image of Yee fields as specification | curls of the part and of the whole differ only across the walls; the operator commutes with the mirror (C91); odd and even fields are fixed by their half |
| C170 | operatorE/H, hxy2h, hxy2e on real positive media; energies and counts as specification | Hermitian form of the excess energy, continuous in 1/beta and positive at 1/beta = 0; sorted eigenvalues cross zero by the intermediate value theorem and each null vector is a mode; trial spaces of constants and of plane waves |
| C171 | eFull on rows of cells; a period as a list of layers, its copies and the waves outside as specification | field and flux across one cell as a determinant-one matrix, powers by Cayley-Hamilton, conversion to waves; time reversal for lossless media |
| C172 | eFull, e2h, poyntingECrossH, solveMode, expandE; ports, amplitudes and the scattering matrix as specification | the plane integrals of C134 are bilinear, equal on neighbouring planes and multiplied by the product of the factors, so they vanish unless it is one; comparison of two excitations |
| C173 | operatorE, exy2e, exy2h, cylindricalOperator; branch as a specification structure (ModeBranch) | bordered matrix of a simple eigenvalue is invertible, Cramer minors give the eigenvector, implicit function theorem for the determinant; time reversal plus uniqueness gives real beta; Lorentz identity between two points of the branch gives the derivative |
| C174 | eFull, e2h; branch as a specification structure (ResonanceBranch) | diag(1/eps) e_full(0) has the eigenvalues omega^2 on fields off the PEC; symmetry of e_full under the volume makes a nondegenerate eigenvalue algebraically simple; implicit function theorem of C173; C135 along lines in the space of media; conjugation |
| C175 | maxwellOperator, hmn2exyz, hmn2hxyz; branch as a specification structure (BandBranch) | the operator as a matrix with entries analytic in k0 and epsilon; self-adjointness (C59) makes a nondegenerate eigenvalue algebraically simple; implicit function theorem of C173; C113 and C136 along lines give the slopes |
| C176 | nearToFarfield; far-field vector in Cartesian components, moved and flipped arrays as specification | spectra as Fourier integrals (C81); the components are u x L - N + (N.u) u for the direction u of the sample, which is covariant; displacement law of the Fourier integral modulo the size of the array |
| C177 | operator_e, exy2e, e_full, e2h, the wavenumber correction of waveguide_3d.solve_mode | operator_e factors into two first-order maps, so no cutoff means no purely axial free field; a free field with vanishing transverse E on two neighbouring planes is then zero plane by plane; the difference between the field and the modes matched on two planes is such a field |
| C178 | as C177, with poynting_e_cross_h and e2h | the map from amplitudes to (transverse E on one plane, transverse H on the plane before) is injective by C177 and Ampere's law, hence onto by counting dimensions; so the integrals with all modes determine the tangential fields and no weight can vanish; orthogonality from C172; symmetric bilinear forms have orthogonal bases |
| C179 | as C177, C172 | fields between the ports with outgoing waves at both ends are a linear system with as many equations as unknowns: the map is injective without trapped fields, hence onto; uniqueness by subtraction; straight guide from the uniqueness of C177; power from C100 between two planes; absorption kills the field in the device, then Ampere's and Faraday's laws carry the zero to the ports |
| C180 | as C179 | a field scattered by the combination is scattered by each device (uniqueness of the modes at the joint), and two fields with the same waves at the joint are parts of one; elimination of the waves at the joint; ports moved plane by plane, using C177 over three planes |
| C181 | as C179, C172, C178 | reciprocity from C172 with the ports of C178; the two directions of a mode carry no power together, which makes the overlap of E and H real and the two powers opposite; power zero with all modes would make the mode vanish; balance of power between the ports, waves whose factors do not fit together dropping out; on the modes with one wavenumber the overlap of E and H is a Hermitian or skew form, diagonalised by the spectral theorem |
| C182 | e_full, h_full, eh_full, e2h, m2j, operator_e, operator_h as matrices | action on a unit vector; a field that vanishes on the stencil gives zero; on three or more cells the thirteen positions are different and each off-diagonal entry is a single product of inverse widths |
| C183 | fdtd.poynting of records of runs, fdfd poynting_e_cross_h of their transforms | Parseval's formula for summable sequences by dominated convergence, applied to each product of field components; C115 and C120 identify the transforms with FDFD solutions |
| C184 | derivatives, curls, updates, poynting, delta_energy_j, dxmul on arrays whose shapes are only known at run time, with numpy's broadcasting (Model/Shapes.lean) | every intermediate shape divides the shape of the result up to axes of length one; values by following the index through each broadcast |
| C185 | get_tr, inner_product | fields expanded in the complete left modes turn continuity into the two linear systems of get_tr; the overlap is nondegenerate; counterexample with an explicit singular value decomposition |

Properties not expressible: none. Outside every statement are rounding error, speed, logging, and the convergence
of the iterative routines, except power_iteration (C71) and the descent of eigsolve, pass by pass and over a whole run (C77).

### What is modelled, what is not

Modelled, function by function (file and lines are cited at every definition): `fdmath/functional.py`,
`fdmath/operators.py`, `fdmath/vectorization.py` (`vec`, `unvec`), `fdtd/base.py`, `fdtd/energy.py`, `fdtd/boundaries.py`,
`fdtd/pml.py`, `fdtd/misc.py`, `fdfd/operators.py`, `fdfd/functional.py`, `fdfd/scpml.py`, `fdfd/solvers.py` (`generic`, the
callback wiring of `_scipy_qmr`), `fdfd/waveguide_2d.py`, `fdfd/waveguide_3d.py`, `fdfd/waveguide_cyl.py`, `fdfd/eme.py`,
`fdfd/bloch.py` (`generate_kmn`, `maxwell_operator`, `hmn_2_exyz`, `hmn_2_hxyz`, `inverse_maxwell_operator_approx`, `find_k`,
`eigsolve`, `inner_product`, `trq`), `fdfd/farfield.py`, `eigensolvers.py`.

Not modelled: logging, type aliases (`fdmath/types.py`), `__init__` re-exports, the docstring-only theory sections;
`mu` in `inverse_maxwell_operator_approx` on grids that are not cubic (in `maxwell_operator` only the array shapes are modelled,
which decide that it raises); the optional callback of `eigsolve`; the dead code after `if False:` in `eigsolve`. `while True` in
`eigsolve` is a recursion with a bound on the number of passes, and every theorem holds for every bound.

### Oracles and their contracts

| routine | where | contract |
|---|---|---|
| matrix solver of `generic` | C32 | returns an exact solution of the system it gets (explicit hypothesis) |
| `scipy.sparse.linalg.eigs` | C46, C66, C74 | `IsEigs`: `k` independent eigenpairs of largest magnitude |
| inner solver of `rayleigh_quotient_iteration` | C46, C65 | none, or an exact solve where stated |
| `numpy.linalg.lstsq`, `svd`, `pinv` | C55–C57 | `LibOk`, proved satisfiable: `libOk_exists` |
| `scipy.linalg.sqrtm`, `eig`, `argsort` | C77, C78, C95, C99 | `SolveLibOk`, proved satisfiable: `solveLibOk_exists` |
| `minimize_scalar` | C77, C79 | C77_descent: no worse than angle 0; C79: none |
| `root_scalar` | C22, C67 | none, or a root of the function given |

## 5. Disagreements between code and property

Each line is a clause of a property that is false of the code at the pinned commit, with the theorem that proves the
negation (a concrete witness or a statement about all inputs). What remains true is proved by the other theorems of the property.

| id | code | what goes wrong | theorem |
|---|---|---|---|
| C10 | fdtd/energy.py `dxmul` | every component is weighted with dx_e·dy_e·dz_e (H: dx_h·dy_h·dz_h) instead of its Yee volume, so the local balance fails when dx_e ≠ dx_h | `C10_unequal_lattices_partial` |
| C18 | fdtd/boundaries.py | index lists containing slices raise an IndexError with numpy ≥ 2 | `C18_raises_on_numpy2_partial` |
| C20 | fdtd/pml.py:106 | forward derivatives are built from dxes[1], not dxes[0] | `C20_update_h_partial`, `C20_update_h_wrong_lattice_partial` |
| C22 | fdtd/misc.py | `one_sided`: the amplitude drops to 1 after a peak above 1 | `C22_one_sided_partial`, `C22_one_sided_drop_partial` |
| C23 | fdtd/misc.py | `gaussian_beam` is NaN on grids containing the waist plane | `C23_finite_iff_partial`, `C23_normalised_partial`, `C23_nan_partial` |
| C24 | fdfd/functional.py:45, 141-147 | `e_full` multiplies by mu; `m2j` has the opposite sign of operators.m2j; operators.eh_full raises for mu=None | `C24_e_full_no_mu_partial`, `C24_e_full_mu_actual_partial`, `C24_e_full_mu_wrong_partial`, `C24_eh_full_partial`, `C24_eh_full_no_mu_raises_partial`, `C24_m2j_sign_partial`, `C24_m2j_wrong_partial`, `C24_tfsf_no_mu_partial` |
| C30 | fdfd/operators.py | `e_boundary_source` misses the currents diagonal to an edge of the mask | `C30_rows_partial`, `C30_complete_partial`, `C30_slab_partial`, `C30_corner_missing_partial` |
| C32 | fdfd/solvers.py:118 | adjoint=True raises: sparse arrays have no `.H` | `C32_solves_partial`, `C32_adjoint_partial`, `C32_adjoint_raises_partial`, `C32_guess_partial` |
| C33 | fdfd/solvers.py | E_guess stays in the caller's options; a user callback recurses for ever | `C33_no_guess_partial`, `C33_no_guess_sequence_partial`, `C33_stale_guess_partial`, `C33_interference_partial`, `C33_callback_recursion_partial`, `C33_no_callback_partial` |
| C37 | fdfd/scpml.py | the first list is sampled at i, not i + 1/2, and is not mirror symmetric | `C37_mirror_a_partial`, `C37_mirror_a_wrong_partial` |
| C38 | fdfd/scpml.py | thickness 0 at the back gives NaN | `C38_zero_front_partial`, `C38_zero_back_partial` |
| C43 | fdfd/waveguide_2d.py:944 | trapezoid=True integrates along the wrong axis and raises for nx ≠ ny; on square cross-sections it returns the integral with the widths of the two axes exchanged | `C43_trapezoid_raises_partial`, `C43_trapezoid_square_partial`, `C43_trapezoid_wrong_partial` |
| C45 | fdfd/waveguide_2d.py | `sensitivity` is wrong on non-uniform grids and for lossy media | `C45_sensitivity_fails_nonuniform_partial`, `C45_sensitivity_fails_lossy_partial` |
| C46 | fdfd/waveguide_2d.py:892 | evanescent modes get wavenumber 0; the modes come sorted, not in the order requested | `C46_lossless_partial`, `C46_propagating_partial`, `C46_evanescent_partial`, `C46_order_partial`, `C46_empty_partial` |
| C46, C74 | fdfd/waveguide_2d.py:879, waveguide_cyl.py:175 | with `mode_margin=0` one mode too few is computed (numbers start at 0) and every request raises | `C46_no_margin_partial`, `C74_no_margin_partial` |
| C47 | fdfd/waveguide_cyl.py | `exy2e` uses Tb where Ta belongs; `e2h`, `exy2h` return −H | `C47_operator_modes_partial`, `C47_mode_gives_eigenvector_partial`, `C47_exy2e_error_partial`, `C47_exy2e_wrong_partial` |
| C51 | fdfd/waveguide_3d.py:89-94 | polarity −1 flips H but not E_z | `C51_forward_partial`, `C51_backward_fails_partial`, `C51_backward_witness_partial` |
| C52 | fdfd/waveguide_3d.py | the distance between planes i and i+1 is taken as dx_e[i+1] | `C52_uniform_partial`, `C52_off_by_one_partial` |
| C53 | fdfd/waveguide_3d.py | empty window and NaN for polarity +1 and a slice starting below 2 | `C53_normalised_partial`, `C53_defined_partial`, `C53_nan_at_start_partial` |
| C56 | fdfd/eme.py:70-75 | transmission blocks exchanged in `get_s` | `C56_abcd_partial`, `C56_same_iff_partial`, `C56_fails_partial` |
| C57 | fdfd/eme.py | `force_nogain` keeps the singular values | `C57_diagonal_partial`, `C57_gain_partial` |
| C58–C61, C75 | fdfd/bloch.py:166 | basis wrong for k_x = 0, k_y ≠ 0 and NaN for k along y | `C58_frame_partial`, `C58_fails_partial`, `C58_cubic_partial`, `C59_hermitian_partial`, `C59_matrix_partial`, `C59_nan_partial`, `C59_nan_cubic_partial`, `C60_uniform_partial`, `C59_nan_partial`, `C61_transverse_partial`, `C61_fails_partial`, `C59_nan_partial`, `C75_curl_curl_partial` |
| C62, C76 | fdfd/bloch.py:805-861 | a minus sign instead of a product in both cross products; arguments scaled in place; `trq` of a field with itself raises | `C62_value_partial`, `C62_polarised_partial`, `C62_modifies_partial`, `C62_fails_partial`, `C76_raises_partial` |
| C95 | fdfd/scpml.py:166-169, eigensolvers.py:37, 86-87, fdfd/bloch.py:566-569, 731-732 | the caller's grid is overwritten and returned; the caller's guess vector is rescaled; eigsolve leaves its block in y0 | `C95_scpml_overwrites_partial`, `C95_guess_overwritten_partial`, `C95_bloch_guess_overwritten_partial` |
| C64 | fdfd/farfield.py | non-square grids raise, one sample beyond the light cone makes everything NaN, the returned dky is 0 | `C64_roundtrip_partial`, `C64_nonsquare_partial`, `C64_nan_partial`, `C64_nan_fine_partial`, `C64_dky_partial`, `C64_chain_partial` |
| C65 | eigensolvers.py | after the last iteration the eigenvalue belongs to the previous vector; iterations=0 raises | `C65_rayleigh_partial`, `C65_rayleigh_zero_partial`, `C65_stale_eigenvalue_partial` |
| C67 | fdtd/misc.py | `ricker_pulse` exceeds turn_on at step 0 | `C67_ricker_turn_on_partial` |
| C68 | fdfd/scpml.py | the two constructors give different grids | `C68_relation_partial`, `C68_differ_partial` |
| C69 | fdfd/waveguide_2d.py | `inner_product` uses the weights of the other component: modes are not orthogonal when dx_e ≠ dx_h | `C69_inner_product_orthogonality_fails_partial` |
| C70 | fdfd/waveguide_2d.py:903, fdfd/waveguide_cyl.py:203 | positional arguments raise a TypeError | `C70_positional_raises_partial`, `C70_bent_positional_raises_partial` |
| C72 | fdfd/waveguide_cyl.py:410 | `ra` steps by the width of the next cell | `C72_uniform_partial`, `C72_steps_partial`, `C72_nonuniform_partial` |
| C74 | fdfd/waveguide_cyl.py | as C46 | `C74_lossless_partial`, `C74_propagating_partial`, `C74_evanescent_partial` |
| C78 | fdfd/bloch.py | when the iterations run out the Gram matrix belongs to the previous block | `C78_ritz_partial`, `C78_frequencies_partial`, `C78_stale_partial` |
| C79 | fdfd/bloch.py | `find_k` always raises a TypeError | `C79_find_k_partial` |
| C81 | fdfd/farfield.py:70 | padding is appended after the halves were swapped | `C81_radiation_partial`, `C81_padded_partial`, `C81_fails_partial` |
| C89 | fdfd/bloch.py:252-272, 405-416 | `maxwell_operator` raises a ValueError whenever `mu` is given; `inverse_maxwell_operator_approx` with `mu` sums over a grid axis instead of the components | `C89_mu_raises_partial`, `C89_inverse_mu_wrong_partial` |
| C109 | fdfd/bloch.py:160 | with an even number of cells the plane waves are not symmetric under k → −k, so ω(−k) ≠ ω(k) | `C109_even_partial` |
| C113 | fdfd/bloch.py:166-177 | where kx = 0, ky ≠ 0 the returned fields are not transverse, and their flux is not the slope of the band | `C113_fails_partial` |
| C119 | fdfd/eme.py:73-74 | `get_s` puts `t12` at the upper right and `t21` at the lower left; with `S @ incoming` the matrix of a lossless interface is then not unitary when the transmission matrix is not symmetric, and shows gain | `C119_gain_partial` |
| C126 | fdtd/boundaries.py:32-67 | same cause as C18 (list indices raise on numpy >= 2); read as tuples, the walls are magnetic mirrors, not electric ones as the name suggests | `C18_raises_on_numpy2_partial`, `C126_image_partial` |
| C127 | fdfd/waveguide_3d.py:159-203 | the docstring announces the overlap of the orthogonality relation, the code projects on E alone without cell areas: reflected and other modes are counted | `C127_projection_partial`, `C127_backward_partial`, `C127_other_mode_partial` |
| C128 | fdfd/bloch.py:623-625 | A guess whose columns span an invariant subspace (an exact solution) has a zero gradient: `num_modes / norm(D)` divides by zero and the block becomes NaN instead of being returned | `C128_exact_guess_partial` |
| C132 | fdmath/__init__.py:42-108, 505-700, types.py:64-80 | On a non-uniform grid the documented cell widths are not the distances between the documented positions: `deriv_forward` divides the difference of E values `dx'[m]` apart by `dx[m]`, `deriv_back` the difference of H values `dx[m]` apart by `dx'[m]`. The two lists have to be exchanged, or `dx_h` moved on by one cell | `C132_documented_widths_partial`, `C132_refinement_partial`, `C132_no_positions_partial` |
| C137 | fdfd/eme.py:82 | `get_s(force_reciprocal=True)` averages `t12` and the transpose of `t21` although their phases are opposite when the modes are not normalised to `inner_product(e, h, conj_h=False) = 1`; a waveguide joined to itself gives the zero matrix | `C137_reciprocal_phase_fails_partial` |
| C139 | fdtd/misc.py:47, 27 | alpha = fwhm² log 2 / 8 instead of fwhm² / (16 log 2); documented FWHM_time twice the actual width | `C139_packet_width_partial`, `C139_packet_time_width_partial` |
| C151 | fdtd/energy.py:83, fdfd/functional.py:210, fdfd/waveguide_3d.py:243 | results are written into `empty_like(e)` / `zeros_like(E)`: a floating `e` with complex `h`, widths or phases gives only the real part | `C151_poynting_partial`, `C151_expand_partial` |
| C151 | fdtd/pml.py:102, 125-137 | the auxiliary arrays have the (default float32) `dtype`, so complex fields raise as soon as there is one absorbing layer | `C151_cpml` |
| C76 | meanas/fdfd/bloch.py trq | a field compared with its own copy gives r = 0 but |t| ≠ 1 | C76_wrong_partial |
| C154 | fdfd/eme.py:58 | dense blocks given to `sparse.block_array`, so that `get_abcd` always raises | `C154_raises_partial`, `C154_scatters_but_raises_partial` |
| C155 | meanas/fdfd/waveguide_3d.py:191 | `slices[axis].start - 2 * polarity` is arithmetic on a slice bound: `None` raises TypeError, `-1` and `-2` with polarity -1 select nothing and the result is NaN | `C155_none_raises_partial`, `C155_negative_nan_partial`, `C155_negative_defined_partial` |
| C156 | meanas/fdfd/solvers.py:62 | `x, _ = qmr(...)` drops the status: a solve that did not converge is returned as if it had | `C156_silent_partial` |
| C159 | meanas/fdfd/bloch.py:166-172 | plane waves with `kx = 0, ky ≠ 0` get `m = ey`, which is not transverse: bands of anisotropic (or inhomogeneous) media jump at such Bloch vectors | `C159_jump_partial` |
| C184 | meanas/fdmath/operators.py:112-115, meanas/fdtd/energy.py:263-270, meanas/fdtd/base.py:61 | the matrix curl compares only the numbers of cells, so lists in the wrong order pass; `delta_energy_j` and `dxmul` on a flat grid accept extra widths (`dxmul` also larger media) and return extra cells; a medium of shape `(3,)` on three cells along z means layers | `C184_sparse_partial`, `C184_energy_partial`, `C184_dxmul_grows_partial`, `C184_three_numbers_partial` and the examples beside them |
| C185 | meanas/fdfd/eme.py:33-36 | every singular value of the transmission above one is inverted; with decaying modes in the lists an amplitude may exceed one without any gain, and the exact result is then replaced (a totally reflecting lossless metal reflects 15 % of the power); the outcome depends on the scale of the modes, and no scale serves both directions | `C185_metal_partial`, `C185_abcd_any_scale_partial` |

Smaller observations, not stated as properties: `scipy_iop @ G` in `eigsolve` overwrites `G`; the docstring of the Bloch operator has the opposite sign; `near_to_farfield` returns `E`, `H` instead of the
documented `E_far`, `H_far`, and the documented prefactor exp(−ikr) is the conjugate of the code's convention; `far_to_nearfield`
never reads `H_far`; `get_tr` raises whenever the numbers of modes differ; the Bloch operators with `mu` raise a shape error.

## 6. Axioms per theorem

Printed by `tools/axioms.py` (`#print axioms` for every theorem of MANIFEST.json).

* {Classical.choice, Quot.sound, propext} — 822 theorems: `C01_curl_back`, `C01_curl_forward`, `C01_curl_forward_x`, `C01_curl_values`, `C01_deriv_2d`, `C01_deriv_back`, `C01_deriv_forward`, `C01_deriv_values`, `C02_position_2d`, `C02_position_3d`, `C02_unvec_error_iff`, `C02_unvec_vec`, `C02_vec_unvec`, `C03_shift_circ`, `C03_shift_circ_error_iff`, `C03_shift_circ_group`, `C04_shift_with_mirror`, `C04_shift_with_mirror_ok_iff`, `C05_curl_grad_back`, `C05_curl_grad_forward`, `C05_div_curl_back`, `C05_div_curl_forward`, `C06_curl_adjoint`, `C06_curl_adjoint_weighted`, `C06_deriv_adjoint`, `C06_deriv_adjoint_weighted`, `C07_curl_back_parts`, `C07_curl_forward_parts`, `C07_parts_single_axis`, `C08_avg`, `C08_avg_preserves`, `C08_vec_cross`, `C08_vec_cross_antisymm`, `C09_gauss_electric`, `C09_gauss_magnetic`, `C100_average_power`, `C100_cell`, `C100_magnetic_current`, `C100_same_power`, `C100_surface`, `C101_absorbs`, `C101_factor`, `C101_regular`, `C101_steady_state`, `C102_backward_mode`, `C102_real_fields`, `C102_reversed_fields`, `C102_time_reversal`, `C102_wrong_direction`, `C103_exact`, `C103_gradient`, `C103_gradient_conductors`, `C103_solver`, `C104_curl_back`, `C104_curl_forward`, `C104_deriv_back`, `C104_deriv_forward`, `C104_step`, `C105_convergence`, `C105_perturbed_run`, `C105_second_order`, `C106_bound`, `C106_error`, `C106_second_order`, `C107_divergence`, `C107_region`, `C107_region_yee`, `C107_two_surfaces`, `C108_conjugate`, `C108_conjugate_h`, `C108_negative_frequency`, `C108_quadrature`, `C108_scpml`, `C108_time_reversal`, `C109_bands_partial`, `C109_even_partial`, `C109_fields_partial`, `C109_operator_partial`, `C10_delta_energy`, `C10_excess_e2h_partial`, `C10_excess_h2e_partial`, `C10_poynting_e2h_partial`, `C10_poynting_e2h_yee`, `C10_poynting_h2e_partial`, `C10_poynting_h2e_yee`, `C10_source_work`, `C10_unequal_lattices_partial`, `C110_bands`, `C110_eps`, `C110_fields`, `C110_lattice`, `C110_operator`, `C111_monotone`, `C111_stable`, `C112_maxwell`, `C112_residual`, `C112_upper_bound`, `C113_fails_partial`, `C113_group_velocity_partial`, `C113_slope_partial`, `C113_two_modes_partial`, `C114_lossless`, `C114_matching`, `C114_reciprocal`, `C115_at_rest`, `C115_finite`, `C115_no_resonance`, `C115_pulse`, `C116_exchange`, `C116_mixed`, `C116_reciprocity`, `C117_fdfd`, `C117_frequency`, `C117_magic`, `C117_phase_velocity`, `C117_pulse`, `C117_revival`, `C118_cubic`, `C118_eigenvalue`, `C118_monotone`, `C118_not_hermitian`, `C119_gain_partial`, `C119_get_s_partial`, `C119_power_partial`, `C119_unitary_partial`, `C11_source_free`, `C11_total_energy`, `C120_damped`, `C120_params`, `C120_solution`, `C120_transform`, `C121_fundamental`, `C121_harmonic_mean`, `C121_monotone`, `C121_trial`, `C122_dispersion`, `C122_group_index`, `C123_exchange`, `C123_mirror`, `C123_parity`, `C123_scale`, `C123_translate`, `C124_complete`, `C124_finite`, `C124_monotone`, `C124_only_if`, `C124_orthogonal`, `C124_rayleigh`, `C124_real`, `C124_solvable`, `C124_solver`, `C124_total`, `C125_highest`, `C125_peak`, `C125_ringing`, `C125_spectrum`, `C126_image_partial`, `C127_backward_partial`, `C127_other_mode_partial`, `C127_projection_partial`, `C128_bloch_partial`, `C128_bloch_run_partial`, `C128_conjugate`, `C128_defined`, `C128_direction`, `C128_exact_guess_partial`, `C128_one_mode`, `C128_progress`, `C128_progress_between`, `C128_run`, `C128_stationary`, `C129_fdtd`, `C129_residual`, `C129_rings`, `C129_samples`, `C129_second_order`, `C12_stability`, `C130_consistent`, `C130_differences`, `C130_residual`, `C130_second_order`, `C131_bloch`, `C131_box`, `C131_waveguide`, `C132_consistent_widths`, `C132_documented_widths_partial`, `C132_no_positions_partial`, `C132_refinement_partial`, `C133_curl_back`, `C133_curl_forward`, `C133_deriv_forward`, `C133_fdfd_error`, `C133_fdfd_second_order`, `C133_fdtd_error`, `C133_fdtd_second_order`, `C134_conjugate_surface`, `C134_mode_overlap`, `C134_planes`, `C134_power_planes`, `C134_surface`, `C135_balance`, `C135_damped`, `C135_decay`, `C135_exact`, `C135_lossless`, `C135_shift`, `C136_frequency`, `C136_slope`, `C136_two_media`, `C137_get_abcd`, `C137_get_s_partial`, `C137_get_tr`, `C137_reciprocal_phase_fails_partial`, `C138_exact`, `C138_linear_growth`, `C138_nearest`, `C138_rounded_run`, `C138_rounding_function`, `C139_packet_energy`, `C139_packet_real_spectrum`, `C139_packet_spectrum`, `C139_packet_time_width_partial`, `C139_packet_width_partial`, `C139_ricker_peak`, `C139_ricker_spectrum`, `C13_reversible`, `C13_reversible_script`, `C140_attenuation`, `C140_fields`, `C140_fundamental`, `C140_group`, `C140_guided`, `C140_lossless`, `C140_modes`, `C140_monotone`, `C140_operator`, `C140_orthogonal`, `C140_second`, `C140_solver`, `C141_cell`, `C141_exact`, `C141_gradient`, `C142_amplitude`, `C142_antiresonance`, `C142_expansion`, `C142_foster`, `C142_fredholm`, `C142_monotone`, `C142_peak`, `C142_reactive`, `C143_bounded`, `C143_conductor`, `C143_decays`, `C144_exists_unique`, `C144_power`, `C144_solver`, `C144_stretch`, `C144_stretch_both`, `C144_uniform`, `C144_unique`, `C145_extinction`, `C145_fdtd`, `C145_magnetic`, `C145_optical`, `C145_passive`, `C145_polarisation`, `C145_scattered`, `C146_fresnel`, `C146_interface`, `C146_layer`, `C146_power`, `C146_staircase`, `C147_conversions`, `C147_fdtd`, `C147_fields`, `C147_h_full`, `C147_mode`, `C147_operator_h`, `C148_after_sources`, `C148_conserved_e`, `C148_conserved_h`, `C148_fixed`, `C148_only`, `C148_point_source`, `C148_residual`, `C149_box`, `C149_dark`, `C149_dark_box`, `C149_entries`, `C149_generic`, `C149_local`, `C149_magnetic_box`, `C149_magnetic_field`, `C149_magnetic_wall`, `C149_shielded`, `C149_splits`, `C14_superposition`, `C150_conversions`, `C150_e_full`, `C150_fdtd`, `C150_h_full`, `C150_modes`, `C150_operator_e`, `C150_solutions`, `C150_upml`, `C150_upml_stretch`, `C151_cpml`, `C151_cpml_mixed`, `C151_curl`, `C151_expand_partial`, `C151_integer_partial`, `C151_poynting`, `C151_poynting_partial`, `C151_updates`, `C151_wave`, `C152_converges`, `C152_free`, `C152_layers`, `C152_meets`, `C152_one_sided`, `C152_open`, `C153_converges`, `C153_free`, `C153_layers`, `C153_meets`, `C153_open`, `C153_regular`, `C154_raises_partial`, `C154_repaired_partial`, `C154_scatters_but_raises_partial`, `C155_negative_defined_partial`, `C155_negative_nan_partial`, `C155_none_raises_partial`, `C155_overlap_partial`, `C155_source`, `C156_adjoint_residual_partial`, `C156_error_partial`, `C156_residual_partial`, `C156_silent_partial`, `C157_e_full_fold`, `C157_e_full_tile`, `C157_fdtd_fold`, `C157_fdtd_tile`, `C157_generic`, `C157_resonances`, `C157_solutions`, `C158_bands`, `C158_fields`, `C158_operator`, `C158_phase`, `C159_jump_partial`, `C159_lipschitz_partial`, `C15_light_cone`, `C15_light_cone_leapfrog`, `C160_attained`, `C160_field`, `C160_frequency`, `C160_media`, `C160_residual`, `C160_solvable`, `C160_solver`, `C161_coefficients`, `C161_ports`, `C161_power`, `C161_reciprocity`, `C161_scattering`, `C162_decay`, `C162_eigsolve`, `C162_one_mode`, `C162_passes`, `C162_returns`, `C163_bloch`, `C163_bloch_case`, `C163_limit`, `C163_limit_points`, `C163_one_mode`, `C163_preconditioner`, `C164_algebraic`, `C164_bands`, `C164_case`, `C164_grid`, `C165_count`, `C165_exact`, `C165_exact_case`, `C165_gap`, `C165_gap_case`, `C165_limit`, `C166_bend`, `C166_bend_group`, `C166_case`, `C166_dispersion`, `C166_group`, `C166_index`, `C166_reactive`, `C167_case`, `C167_interface`, `C167_power`, `C167_reduction`, `C167_row`, `C167_scattering`, `C167_tm`, `C167_total`, `C168_bound`, `C168_lorentzians`, `C168_passive`, `C168_point_source`, `C168_power`, `C168_solvable`, `C168_sum_rule`, `C169_case`, `C169_parity`, `C169_pec`, `C169_pec_driven`, `C169_pec_part`, `C169_pec_resonances`, `C169_pec_simulation`, `C169_pmc`, `C169_pmc_driven`, `C169_pmc_part`, `C169_pmc_resonances`, `C169_pmc_simulation`, `C16_translation`, `C170_mode_number`, `C170_multiplicity`, `C170_plane_waves`, `C170_propagating`, `C170_second`, `C170_solver`, `C170_trial`, `C171_band`, `C171_bloch`, `C171_gap`, `C171_lossless`, `C171_mirror`, `C171_repeated`, `C171_single`, `C171_transfer`, `C171_windows`, `C172_mode`, `C172_orthogonal`, `C172_power`, `C172_power_orthogonal`, `C172_reciprocity`, `C172_symmetric`, `C172_unitary`, `C173_bend`, `C173_branch`, `C173_derivative`, `C173_group`, `C173_power`, `C173_real`, `C174_branch`, `C174_lossless`, `C175_branch`, `C175_slopes`, `C176_array`, `C176_dual`, `C176_exchange`, `C176_mirror`, `C177_complete`, `C177_distinct`, `C177_port`, `C178_amplitudes`, `C178_nondegenerate`, `C178_orthogonal`, `C178_port`, `C179_absorbing`, `C179_balance`, `C179_iff`, `C179_matrix`, `C179_power`, `C179_straight`, `C17_arguments`, `C17_sum_zero`, `C17_sum_zero_eh`, `C180_cascade`, `C180_ports_moved`, `C180_straight`, `C181_mode_power`, `C181_orthogonal`, `C181_reciprocal`, `C181_unitary`, `C182_count`, `C182_e_full`, `C182_first_order`, `C182_h_full`, `C182_modes`, `C182_sharp`, `C183_cpml`, `C183_flux`, `C183_run`, `C183_spectrum`, `C183_work`, `C184_curl`, `C184_dxmul_default`, `C184_dxmul_grows_partial`, `C184_dxmul_partial`, `C184_energy_partial`, `C184_poynting`, `C184_sparse_partial`, `C184_update`, `C185_abcd_any_scale_partial`, `C185_any_scale_partial`, `C185_exact`, `C185_inverse`, `C185_joined_iff`, `C185_metal_hypotheses`, `C185_metal_partial`, `C185_modes`, `C185_scaled`, `C185_transfer`, `C18_accepts`, `C18_high_side_partial`, `C18_idempotent_partial`, `C18_low_side_partial`, `C18_too_short_partial`, `C19_accepts`, `C19_bounds`, `C19_mirror`, `C19_monotone`, `C19_placement`, `C20_update_e`, `C20_update_h_actual`, `C20_update_h_partial`, `C20_update_h_wrong_lattice_partial`, `C21_convolution_e`, `C21_convolution_h`, `C21_disjoint_layers`, `C21_interior`, `C21_outside`, `C21_recursion_e`, `C21_recursion_h`, `C21_update_e`, `C21_update_h`, `C22_delay`, `C22_envelope`, `C22_one_sided_drop_partial`, `C22_one_sided_partial`, `C22_phase`, `C22_ricker`, `C22_ricker_second_derivative`, `C22_turn_on`, `C23_finite_iff_partial`, `C23_nan_partial`, `C23_normalised_partial`, `C24_e2h`, `C24_e_full_mu_actual_partial`, `C24_e_full_mu_wrong_partial`, `C24_e_full_no_mu_partial`, `C24_eh_full_no_mu_raises_partial`, `C24_eh_full_partial`, `C24_m2j_sign_partial`, `C24_m2j_wrong_partial`, `C24_tfsf_no_mu_partial`, `C25_inverse`, `C25_symmetric`, `C26_first_second_order`, `C26_functional_no_mu`, `C26_no_magnetic_source`, `C27_e_to_h`, `C27_h_to_e`, `C28_eh_full`, `C28_empty_masks`, `C28_h_full_pec`, `C28_h_full_value`, `C28_pec_elsewhere`, `C28_pec_independent`, `C28_pec_zero`, `C28_pmc_e2h`, `C28_pmc_e_full`, `C28_pmc_zero`, `C29_launches`, `C29_local`, `C30_complete_partial`, `C30_corner_missing_partial`, `C30_rows_partial`, `C30_slab_partial`, `C31_e_cross`, `C31_energy_balance`, `C31_h_cross`, `C31_total_power`, `C32_adjoint_partial`, `C32_adjoint_raises_partial`, `C32_guess_partial`, `C32_solves_partial`, `C33_interference_partial`, `C33_no_guess_partial`, `C33_no_guess_sequence_partial`, `C33_stale_guess_partial`, `C34_charge`, `C34_no_charge`, `C35_documented_signs`, `C35_driven`, `C35_harmonic`, `C36_dispersion`, `C36_fdtd`, `C37_default_growth`, `C37_default_outside`, `C37_default_sign`, `C37_mirror_a_partial`, `C37_mirror_a_wrong_partial`, `C37_mirror_b`, `C37_outside`, `C37_real_part`, `C37_zero_thickness`, `C38_commute`, `C38_layer_only`, `C38_raises`, `C38_zero_back_partial`, `C38_zero_front_partial`, `C39_e2h_h2e`, `C39_errors_decide`, `C39_errors_zero`, `C39_is_mode`, `C39_operator_e_modes`, `C40_is_mode`, `C40_operator_h_modes`, `C41_mode_gives_eigenvectors`, `C41_same_spectrum`, `C42_normalized_fields_e`, `C42_normalized_fields_h`, `C42_phase_invariant`, `C42_rejects`, `C42_scale_invariant`, `C42_unit_power`, `C43_inner_product_value`, `C43_sesquilinear`, `C43_trapezoid_raises_partial`, `C43_trapezoid_square_partial`, `C43_trapezoid_two_partial`, `C43_trapezoid_wrong_partial`, `C44_orthogonal`, `C45_sensitivity_fails_lossy_partial`, `C45_sensitivity_fails_nonuniform_partial`, `C45_sensitivity_uniform`, `C46_empty_partial`, `C46_evanescent_partial`, `C46_lossless_partial`, `C46_no_margin_partial`, `C46_order_partial`, `C46_propagating_partial`, `C47_exy2e_error_partial`, `C47_exy2e_wrong_partial`, `C47_mode_gives_eigenvector_partial`, `C47_operator_modes_partial`, `C48_limit`, `C48_scale_factors`, `C48_unit_factors`, `C49_linear_wavenumber`, `C49_mode_radius`, `C50_expansion`, `C50_reduction`, `C50_solve_mode`, `C50_wavenumber`, `C51_backward_fails_partial`, `C51_backward_witness_partial`, `C51_forward_partial`, `C52_off_by_one_partial`, `C52_slice_and_window`, `C52_step`, `C52_uniform_partial`, `C53_defined_partial`, `C53_nan_at_start_partial`, `C53_normalised_partial`, `C54_layers`, `C54_unidirectional`, `C55_identical`, `C55_mode_matching`, `C55_passive`, `C55_square`, `C56_abcd_partial`, `C56_fails_partial`, `C56_normalised_partial`, `C56_same_iff_partial`, `C56_single_mode_partial`, `C57_diagonal_partial`, `C57_gain_partial`, `C57_reciprocal`, `C57_reciprocal_nearest`, `C58_cubic_partial`, `C58_fails_partial`, `C58_frame_partial`, `C59_hermitian_partial`, `C59_matrix_partial`, `C59_nan_cubic_partial`, `C59_nan_partial`, `C60_uniform_partial`, `C61_fails_partial`, `C61_transverse_partial`, `C62_fails_partial`, `C62_modifies_partial`, `C62_polarised_partial`, `C62_value_partial`, `C63_light_cone`, `C63_total`, `C64_array_step_partial`, `C64_chain_partial`, `C64_dky_partial`, `C64_empty`, `C64_finite_partial`, `C64_nan_fine_partial`, `C64_nan_partial`, `C64_nonsquare_partial`, `C64_padding`, `C64_roundtrip_partial`, `C65_power_eigenvector`, `C65_power_iteration`, `C65_power_unit`, `C65_rayleigh_eigenvector`, `C65_rayleigh_partial`, `C65_rayleigh_zero_partial`, `C65_stale_eigenvalue_partial`, `C66_rough_estimate`, `C66_signed`, `C66_too_small`, `C67_default_turn_on`, `C67_ricker_turn_on_partial`, `C68_differ_partial`, `C68_relation_partial`, `C68_whole_partial`, `C69_exchanged_widths_partial`, `C69_inner_product_orthogonal`, `C69_inner_product_orthogonality_fails_partial`, `C70_any_keywords_partial`, `C70_bent_any_keywords_partial`, `C70_bent_keyword_defaults_partial`, `C70_bent_keyword_partial`, `C70_bent_lossless_partial`, `C70_bent_positional_raises_partial`, `C70_keyword_defaults_partial`, `C70_keyword_partial`, `C70_lossless_partial`, `C70_positional_raises_partial`, `C71_power_converges`, `C72_nonuniform_partial`, `C72_steps_partial`, `C72_uniform_partial`, `C73_unit_power`, `C74_evanescent_partial`, `C74_lossless_partial`, `C74_no_margin_partial`, `C74_propagating_partial`, `C75_curl_curl_partial`, `C76_never_returns_partial`, `C76_raises_partial`, `C76_returns`, `C76_wrong_partial`, `C77_descent`, `C77_line_search`, `C77_run_descent`, `C77_singular_angle`, `C78_frequencies_partial`, `C78_ritz_partial`, `C78_stale_partial`, `C79_find_k_partial`, `C80_incoming`, `C80_outgoing`, `C81_fails_partial`, `C81_padded_partial`, `C81_radiation_partial`, `C82_magnetic`, `C82_reciprocity`, `C82_solver`, `C83_absorbed_power`, `C83_bound`, `C83_exists_unique`, `C83_solver`, `C83_unique`, `C84_e_full`, `C84_fdtd`, `C84_h_full`, `C84_maps`, `C84_solution`, `C85_decoupled`, `C85_deriv_zero`, `C85_scalar`, `C85_width_irrelevant`, `C85_width_irrelevant_fdtd`, `C86_e2h`, `C86_e_full`, `C87_paraxial_equation`, `C87_radius`, `C87_samples`, `C88_attenuation`, `C89_inverse_mu_mixing_partial`, `C89_inverse_mu_wrong_partial`, `C90_e2h`, `C90_e_full`, `C90_fdtd`, `C91_e2h`, `C91_e_full`, `C91_fdtd`, `C91_symmetric_run`, `C92_marginal`, `C92_sharp`, `C92_unstable`, `C93_power`, `C94_end_to_end`, `C95_bloch_effect`, `C95_bloch_guess_overwritten_partial`, `C95_bloch_replaced_guess`, `C95_guess_overwritten_partial`, `C95_power_keeps_arguments`, `C95_rqi_effect`, `C95_rqi_poisoned_guess_partial`, `C95_scpml_effect`, `C95_scpml_overwrites_partial`, `C96_attenuation`, `C96_equipartition`, `C96_lossless`, `C96_normalized_fields`, `C96_passive`, `C97_group_velocity`, `C97_normalized_fields`, `C98_index_bound`, `C99_deterministic`, `C99_independent_guess`, `C99_redraw`, `C99_too_many_modes`, `three_waves_run`, `three_waves_stop`, `three_waves_two`
* {Quot.sound, propext} — 5 theorems: `C184_media`, `C184_three_numbers_partial`, `C18_raises_on_numpy2_partial`, `C33_callback_recursion_partial`, `C89_mu_raises_partial`
* {propext} — 2 theorems: `C154_accepts_iff`, `C33_no_callback_partial`
