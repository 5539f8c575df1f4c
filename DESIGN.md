# Formal model of ebsdtorch in Lean 4

## Layout

* `lean/Verif/Model/*.lean`  – the model: one Lean definition per Python function (or per named step of a long
  function), each with a comment citing the file and lines of `/repo` it models and the simplifications made.
* `lean/Verif/Spec/*.lean`   – small, model-independent specifications (Mathlib's Hamilton quaternions, orthogonal
  matrices, brute-force top-k, scatter matrix, International-Tables ranges ...).
* `lean/Verif/Lemmas/*.lean` – helper lemmas.
* `lean/Verif/Props/*.lean`  – the property theorems `C<nn>_...`, each followed by a non-vacuity `example`.
  Theorem names ending in `_partial` prove only part of the English property; the file then also holds either the
  missing part in words or, where the code really violates the property, a theorem `..._fails` that exhibits a
  concrete counterexample inside the model.
* `MANIFEST.json` – property -> theorem names and status.  `seeded/LOG.jsonl` – mutation log.

## Trusted base

* Lean 4.33.0's kernel, and Mathlib's definitions (ℝ, `Real.sqrt/sin/cos/arccos/log`, `Quaternion`, `Matrix`, `Finset` sums).
* Axioms: only `propext`, `Classical.choice`, `Quot.sound` (checked with `#print axioms`).  No axioms of our own.
* The transcription Python -> Lean.  It is by hand; the comments cite lines so it can be audited.
* Modelling assumptions that are *not* proved:
  1. **Real arithmetic.**  float32/float64 tensors are modelled by ℝ (ℚ/ℤ/ℕ for integer tensors).  No claim is made
     about rounding, overflow, NaN propagation or denormals (except in C134, C138-C141 and C149-C150, see below).  Places where IEEE division by zero matters are called
     out in the comment of the definition (Lean: x/0 = 0; torch: inf/nan) and excluded by hypotheses.
  2. **Elementwise broadcasting.**  Functions acting on the last axis are modelled for one element of the batch.
  3. torch primitives (`argmax`, `topk`, `sort`, `split`, `linspace`, `meshgrid`, indexing) are modelled by their documented
     behaviour; where torch leaves ties open (`argmax`, `topk`) theorems quantify over every admissible choice or
     speak only of values that do not depend on it.
  4. Randomness is an explicit tape argument; theorems quantify over all tapes.
  5. GPU/CPU placement, dtype casts, printing, plotting, HDF5 reading and autograd are not modelled.

## Properties: what is modelled and how it is proved

| id | model | method |
|---|---|---|
| C01–C03, C05 | `qu_*` functions on a structure of 4 reals | translate to Mathlib `ℍ[ℝ]`, `ring`/`nlinarith` |
| C04 | `quaternion_rotate_sets_sphere` for one pair | algebra with `arccos` half-angle identities; antiparallel counterexample |
| C06 | tables of `laue_elements` as lists over ℝ with √2, √3 | exact representation in ℚ(√2,√3), closure by kernel evaluation of exact tables transported to ℝ |
| C07, C08, C10–C12 | `ori_to_fz_laue` as argmax over the list | list-maximum lemmas + group closure; triangle inequality of C11 from the Cauchy-Schwarz bound on the angle of a product |
| C09 | inequality form of `ori_in_fz_laue` | per-group linear-arithmetic equivalence |
| C13–C19 | conversions of `orientations.py` | ring identities; trigonometric identities; case analysis of branches |
| C20–C22 | `sphere.py` | real trigonometry |
| C23–C25 | `se3.py` closed-form branches | matrix identities from `W³ = -θ²W` |
| C26–C29 | `geometry.py` pure functions + a state machine for `EBSDGeometry` | matrix algebra, induction over histories |
| C30, C31, C45 | `ChunkedKNN` as a state machine over lists | invariant: stored rows are a top-k of the prefix seen |
| C32 | `update_covmat` over ℝ-valued vectors | invariant: state = (sum, scatter) of the prefix |
| C33, C34 | `FactorECM` with fuel and random tape | induction on fuel |
| C35, C36, C55, C57 | decision tables | complete case analysis against an independent table |
| C37, C38, C40, C41 | integer bin arithmetic; list histograms | arithmetic / list induction |
| C39 | softmax weights over masked neighbours | `Finset` sums |
| C42–C44 | state machines with dictionaries/caches | invariants over call histories |
| C46 | Python slice semantics | arithmetic |
| C47–C50 | index arithmetic, x-numbers, fill schedule | induction on degree; writes as function updates on an arbitrary initial memory |
| C51, C52 | accumulator update with and without collisions; direction update | finite-map lemma; trigonometric algebra |
| C53, C54, C56 | metric matrices as 3x3 reals | algebra |
| C58 | Seitz operators with exact translations in units of 1/24 | kernel evaluation over the complete finite table of 230 groups (the domain itself is finite) |
| C59, C60 | list grids | induction on the grid |
| C61 | cosine sums | telescoping identity |
| C62–C65 | samplers, progress bar, shape arithmetic, local grid | induction / arithmetic |
| C66 | `qu_slerp` for one pair and for a batch (with torch's broadcasting of the weights) | trigonometric algebra; shape counterexample |
| C67 | `cube_to_rfz`/`rfz_to_cube` for every Laue class | radial maps; zone identified with the FZ of C09 |
| C68, C69, C82 | the whole loop of `bse_sim_mc` with an explicit random tape | termination by the step counter; invariants by induction over the iterations |
| C70, C71 | recursions of both Wigner modules over an arbitrary initial memory | uniqueness of the three-term recursion; Wigner's sum as the specification (`Spec/Wigner`) |
| C72 | `modular_inverse`, `elliptic_curve_add/mul` | extended Euclid invariant; comparison with the chord/tangent law mod every prime divisor |
| C73–C75 | pattern binning, background, phase lists | `Finset` sums; list lemmas |
| C76 | the operators of C58 | kernel evaluation over the finite table, translated to statements about point groups and lattices |
| C77–C81 | `Cell` methods | matrix algebra, list membership |
| C83, C84, C89 | quadrature weights, cubochoric map, square and hexagon maps | telescoping cosine sums; case analysis over sectors; area derivative |
| C85, C87 | `orientation_grid_refinement`, `orientation_grad_refinement`; optimiser = arbitrary trajectory | induction over iterations/batches; concrete failures |
| C86 | `binned_nmi`, `mutual_information` | entropy inequalities (Jensen, Gibbs) |
| C88 | `laue_fz_s2.py` | per-class sector geometry, uniqueness and covering |
| C90 | `KrasulinaPCA`, `OjaPCA` with QR as a specified primitive | matrix algebra, induction over updates |
| C91 | `kvectors_grid` masks per sampling type | orbit argument per point group; counterexamples |
| C92–C94 | `calc_lambda`, excitation errors, the Bloch/structure-matrix helper, `ebsd_master_pattern` | geometry of the Ewald sphere; table look-up with arbitrary memory; positive semidefiniteness of the Gaussian kernel; flux conservation of the exponential of a skew-Hermitian matrix |
| C95 | `spatial_fft_pc_fitter` (metric "dot") with arbitrary master function and dictionary; `rfft2`/`irfft2`/`fftshift` as exact sums | orthogonality of the roots of unity gives the correlation theorem (even widths); fold over batches; explicit searches that return the mirrored pattern centre or an orientation of the wrong batch; floor arithmetic for the searched range (covers the request, but may exceed it) |
| C96 | `cmif` in all its branches (few bins, chunked, constant marginals, masks) with exact FFTs | correlation theorem turns each histogram entry into a count of pixel pairs; entropy identities and Gibbs' inequality; chunk coverage by arithmetic on the ranges; concrete 1x2 and 2x2 images for the failing cases |
| C97 | `hrebsd_coords` on the SE(3) model of C23-C25 and the pixel grid of C29; a zero vector (NaN) is `none` | normalisation commutes with positive scaling; quaternion composition (C03); exp-log round trip (C25); NaN pixel shown for the frozen pose |
| C98 | `apos`/`mults`: Seitz operators of C58, snapping, `fmod`, greedy `unique_rows` with L1 distance | greedy selection invariants; reduction equals the fractional part away from the boundary; orbit-stabiliser from the group property C58; P-1 counterexamples at the cell boundary |
| C99 | the two averages and the density as sums over sites | algebra; the mean over sites instead of the sum shown to be wrong for two or more sites |
| C100 | `dsm2` with NaN as `none` | product of two rotations; NaN at 60° from bounds on π |
| C101 | `cIsht`, `rIsht` with the sparse weight matrices (`Model/ShtFull`) | Spec: Rodrigues' formula (`Spec/SphericalHarmonic`); Wigner `d(π/2)` products → `d^l_{0m}` (Edmonds, `Lemmas/WignerRep`), then Rodrigues; error of the cut-off bounded |
| C102 | `cFsht` after `cIsht` / on samples | discrete orthogonality on the DH grid from C83's quadrature and integration by parts (`Lemmas/Legendre`, `Lemmas/SphOrth`); DFT orthogonality |
| C103 | `rFsht`, `rIsht` | as C102, with the half spectrum; loss of the imaginary part of order zero shown on an instance |
| C104 | `cs2cc`, `rs2cc`; spec: `IsTurned` (function turned by a rotation matrix, as functions on directions), `sphIntegral` | addition theorem for Wigner's matrices at ±pi/2, rotation of spherical harmonics through quadratic forms, Parseval by orthonormality under `sin θ dθ dφ` |
| C105 | `rs2ccFast`, `fastTable` | equality when the second function is zonal; a band limit 2 counterexample otherwise (the augmented coefficients are computed but not used) |
| C106 | `ho2ax` (both fits, Newton step), `ho2ax_reference`, `ho2ax_newton` with the coefficients of the code; `HoFit`, `PolyCert` | exact rational polynomial identities checked in the kernel (`decide +kernel` on big integers), Taylor bounds of sine and cosine, monotonicity of `w - sin w`; for `ho2ax_newton` the radius is concave with slowly decreasing slope, so the updates approach the angle from below and square the error (Lemmas/HoNewton); explicit half turn for which `ho2ax_newton` returns an axis that is not a unit vector |
| C107 | `ori_color_laue` on top of `s2_to_fz_laue`; spec: CSS formula of HSL (`Spec/Color`), `DirEquiv`, `SymEquiv` | case analysis over the hue sextants, invariance from C88; explicit equivalent orientations with different colours, channels outside a byte, wrong saturation below lightness 1/2 |
| C108 | `sample_ori_fz_laue_angle` with the cubochoric grid | filter and permutation as in C12; angle of a grid point from C84 and C106; explicit cubic sample at 40 degrees that leaves a hole of more than 44 degrees around the identity |
| C109 | `scatter_factor_WK` with the full tables (generated into `Model/WkTable.lean`) | Taylor bound on `e^{-x}` per branch, positivity of 97 rows by kernel evaluation, helium by hand; relative error carries over to positive sums |
| C110 | imaginary part of `scatter_factor_WK`/`scatter_factor_hybrid` at `G = 0` | mixed second difference of `x log x - (x+m) log (x+m)` is positive (monotone derivative); core part by `1 - 1/x <= log x`; `sigma = 0` gives NaN |
| C111 | phonon part with the exact exponential integral | series of Ei, its derivative `e^x/x`; every divergent logarithm cancels; limits of difference quotients; with the rational approximation of the code `G^2` times the term has a positive limit (the squared sum of the weights times 4e-18 pi), so it diverges |
| C112 | table lookup of the three functions | case analysis of negative indexing; element 0 equals element 98 |
| C113 | the three batched calls | unfolding of the broadcast; explicit two-voltage witness for `scatter_factor_LVD` |
| C114 | Debye-Waller factor in the three functions | algebra of the exponents; explicit witness `g = 1` |
| C115 | `RIH2_torch` | termwise two-sided bounds of the series of Ei by shifted exponential series; the ten table segments between 20 and 200 one by one |
| C116 | `exp1`, `expi` (all five branches) with the exact decimal coefficients | Reference: series with Mathlib's Euler constant, shown to vanish at minus infinity through the derivative of the Gamma function at 1. Below -1: the error of the derivative is bounded by a polynomial certificate in 1/x and integrated from minus infinity (which also gives Euler's constant to 15 digits); [-1, 0) and (0, 6]: truncated series against the fit by polynomial certificates (nonnegative coefficients after a Moebius substitution, checked by the kernel on integers); (6, 20]: certificate for the derivative relative to `e^x/x`, integrated from 6. Partial: above 20 the branch of Boost for (20, 40] is missing; witness by continuity at 20 |
| C117 | `RIH1_torch_where` | from C116 and monotonicity when neither argument exceeds 20; fails between 20 and 200 by C115 |
| C118 | all composite conversions of orientations.py, `om2ax` | Spec/Representation says which map of vectors each representation names; each conversion carries `Names` over, from C13-C19, C84, C106; the ball is covered by the intermediate value theorem; fails for `om2ax` at the identity and half turns, `bu2ro` at the identity, `ro2om` with negative magnitude |
| C119 | `qu2cl` | direct; fails where two components vanish (0/0) |
| C120 | kernel `bse_sim_mc`: start, scattering event, energy loss, escape | `Spec/JoyLuo.lean` states the physics in CGS units; induction over the events of a path with arbitrary draws; reuses C52. Partial: below 0.0077 mean ionisation potentials events add energy |
| C121 | kernel loop, launch, atomic increments | every step of the loop characterised by the first event that leaves; schedules are arbitrary interleavings, shown to be permutations; 32-bit counters |
| C122 | kernel, `omega = 0` | induction: reversing azimuths commutes with every event; the Lambert projection is odd |
| C123 | `lfsr113_Bits` on 32-bit words | bitwise injectivity of each component on the bits it keeps. Partial: seeds drawn by the host may be degenerate |
| C124 | `run_simulation` with arbitrary launch results | induction over the loop. Fails to return if launches count nothing (`n_max_steps_override = 0`) |
| C125 | `_find_required_steps` with arbitrary test launches | induction over the list of step sizes. Partial: 2000 is also the answer if nothing fills the bins |
| C126 | `resample_to_linear` | grids computed from `arange`; exactness from C60. Fails for "linear" (next segment's line) and for extrapolation |
| C127 | `calc_helper_scatter_matrix` | `λ·modulus·(phase)` recombined with the polar form; the specification is the structure factor of the complex factors. Fails for extinct reflections (1e-8 (1+i)) and without absorption (phase lost) |
| C128 | `standard_clean` as a sequence of calls on a heap of tensors | composition of C74, C41, C38; common background cancels. Fails for 1 or 2 rows/columns (raises after overwriting the caller's data) |
| C129 | heap of tensors, objects hold references; in-place and assigning methods | effect lemma per call, ownership invariant over histories. Fails for objects on the same tensor |
| C130 | exceptions return the world at the point of the raise | case analysis. Fails for `normalize_per_pattern` with an unknown name (patterns stay flattened) |
| C131 | `do_nlpar`: `view` row-major, C39 weights | bijection of in-scan offsets and pattern numbers. Fails (not finite) for identical neighbours |
| C132 | numpy arrays as shape + entries, `squeeze`, broadcasting of `(n, 1, 1)`, `sum(axis=0)`, `concatenate` | case analysis on the shapes. Fails for several sites and energies (raises) |
| C133 | `MasterPattern.__init__` with optional groups | complete characterisation of success. Fails: the Laue group number is not checked |
| C134 | `ChunkedKNN` with arbitrary computed scores per call and a rounding of the buffer (Model/KnnInexact) | invariant on rounded values (rounding is monotone, so it commutes with merging and the error does not accumulate over chunks); error of products of perturbed vectors for int8. Fails: overflow of the half precision buffer; C31 also fails for indices beyond 2^31 |
| C135 | `BlurAndDownsample` on the model of `GaussianBlur2d` (C64) with torch's bicubic and bilinear taps | taps sum to one; block centres by field arithmetic; fails: negative bicubic weights, odd sides drift, other modes raise, reciprocal of 49 in double precision |
| C136 | `Cell.__init__`, `to`, `set_fp_dtype`: device, dtype and one value per tensor, with an arbitrary rounding per dtype | induction over the history; fails: other device than CPU at construction, float32 round trip |
| C137 | `set_inv_f_matrix`/`get_inv_f_matrix` on shapes and row-major data | induction over the history; fails: one matrix for all patterns, no inversion |
| C138 | quaternion product, sign choice and normalisation with every elementary operation rounded to nearest with `p` bits (Model/Rounded, Spec/Float) | rounding to nearest constructed and shown monotone with relative error `2^-p`; componentwise error of the four-term sums by Cauchy-Schwarz; induction over the chain |
| C139 | `qu_apply` with rounding | two rounded products; fails for short points (the homogeneous coordinate 1 absorbs them) |
| C140 | `ori_angle_laue`, `disori_angle_laue`, `qu_angle` with rounding, `torch.acos` NaN outside [-1, 1] | the rounded norm is at least the absolute scalar part (square root of a rounded square is exact), so the normalised scalar part is at most 1; fails without normalisation: a unit quaternion at NaN from itself in single and double precision |
| C141 | `ori_to_fz_laue` with rounding, table of group elements right to four roundings | error of each product against the maximum over the group |
| C142 | the phonon term at g = 0, `scatter_factor_WK`, `scatter_factor_hybrid` | reference is the improper integral of the thermal-diffuse cross section; antiderivative through the exponential integral, limits at 0 and infinity |
| C143 | `e_wavelength_eV_to_A`, wave number of `scatter_factor_WK` | against the CODATA wavelength (Spec.Codata); kernel-checked rational bounds of the constants |
| C144 | grid construction of the Ewald sphere integral | lengths by parity, each point by index |
| C145 | all of `nlpar` | weights and noise rewritten as sums over offset sets; derivative of the mean central share by calculus; Newton's method as a relation |
| C146 | `calc_helper_bloch_formalism` | table look-up (C93) plus rewriting to a structure factor over a flat atom list; the product of the two unit constants bounded with bounds on π |
| C147 | `elliptic_curve_add`, `elliptic_curve_mul`, `prime_power`, one stage of `factor_ecm` | addition modulo `N` maps to Mathlib's group law of the Weierstrass curve over `ZMod q` for each prime `q ∣ N`; induction on the bits of `k` and on the prime list; explicit singular curve that passes the test |
| C148 | `s2_fibonacci`, `so3_fibonacci` | closed forms with Mathlib's golden ratio; intermediate value theorem and monotonicity for the root of `x⁴ = x + 4` |
| C149 | `qu2om`, `om2qu` with a rounding after every elementary operation (`rQu2om`, `rOm2qu`; `rsqrt` as two rounded operations) | standard rounding model, first-order error analysis with explicit constants in each of the four branches; an absorbed product shows the loss of signs near half turns |
| C150 | `ax2qu`, `qu2ax` with a rounding after every operation; `sin`, `cos`, `acos` correctly rounded (`rAx2qu`, `rQu2ax`) | rounding model for the axis; a separation bound for cosines turns the rounding of the scalar part into the error `20/θ` of the angle; the scalar part of a small rotation is absorbed into 1 |
| C151 | `spatial_fft_pc_fitter` with `metric="mi"`: preprocessing, detector mask, `cmif` per batch, running maxima, selection (`fitterBy`) | each map entry is the stated entropy combination of the padded pattern and the displaced simulation (FFT correlation theorem); fold over the batches; first maximum of the flattened table; patterns with one dark pixel give a constant table |
| C152 | the indexing call of C45 on patterns `gain·sim + offset` | Cauchy-Schwarz in the form Σ(a-b)² ≥ 0 on top of C45; a three-pixel detector, a master pattern with weak and strong contrast and two orientations refute it without equal contrast |
| C153 | `grid_sample` (bilinear, border) on the two hemispheres side by side, behind `interpolate` of C44 | position on an axis, the C86 interpolation lemma, C20 in both directions (`C20_forward`); black and white hemispheres refute it at the seam, the pole of an odd-sized pattern with `align_corners=True` |
| C154 | the rays of indexing and of both refinements with `average_pattern_center=False`, with torch broadcasting of 2D tensors | normalised differences; two rays with the same off-plane component that agree start at the same point, so the sign error shows for every position off the origin |
| C155 | `roscaLambert` of both hemispheres; solid angle as the area of (azimuth, height), the cylindrical form of the area of the unit sphere | on each of the four sectors of the square the inverse has the constant Jacobian π/2; change of variables (Mathlib), null sets for the diagonals, then the direction bins of `mcBin` as products of intervals |
| C156 | `cu2ho`, `ho2cu` as maps of ℝ³ (Lebesgue measure of `Fin 3 → ℝ`) | the sorted map is a composition of two differentiable maps with constant Jacobians π/(12√2) and its inverse; change of variables on the open cone, then the 48 signed permutations, whose images cover space up to nine planes |
| C157 | `qu2ho`, `qu2cu` on the unit sphere of ℝ⁴, measured by the volume of the cone over a set (proved invariant under quaternion multiplication, `haar_left`) | (|x|⁴/4, homochoric vector) is an injective map of ℝ⁴ with Jacobian 1; image is a cylinder; C156 for cubochoric vectors; angles below the cut-off 1e-8 of the code are left out |
| C158 | the table of Lobato and Van Dyck (tools/gen_lvd.py, Model/LvdTable) and that of Weickenmeier and Kohl | sums of rational terms brought to a common denominator over the integers; every coefficient of numerator and of minus the derivative is nonnegative for all 102 rows (kernel computation); limits by the sum of a/b per row, checked over the integers |
| C159 | `scatter_factor_LVD`, linspace sampling | Simpson panels against the integral by uniform continuity, in both directions; integrand even in both variables; logspace sampling is not covered |
| C160 | `ori_to_fz_laue`, `ori_in_fz_laue` on the unit sphere of ℝ⁴ with the measure of C157 (proved invariant under right multiplication, `haar_right`; total `haar_all`) | the sets reduced by each of the `order` quaternions of the group are preimages of the zone under isometries, cover (C07, C10), and overlap only in hyperplanes of ties |
| C161 | `s2_in_fz_laue` on the unit sphere, area as three times the volume of the cone (proved invariant, `area_invariant`) | images of the sector under the group tile the sphere (cover and uniqueness lemmas of C88, walls are null sets); the tolerance adds a slab per wall, whose volume is bounded by a shear |
| C162 | `so3_uniform_quat` as a map from the cube of draws to the unit sphere of ℝ⁴ with the measure of C157 | adding a radius coordinate makes the map a change of variables of constant Jacobian 2π² onto the unit ball up to null sets (`drawMap_deriv`, `drawMap_onto`, injectivity) |
| C163 | `rosca_lambert`, `qu_apply`; the two notions of area used in C155 and C161 | spherical coordinates with a volume coordinate are a change of variables of Jacobian 1 onto the unit ball up to a null set (`ballMap_*`); invariance from C161 |
| C164 | `qu_apply` of a fixed direction as a function of the quaternion | right invariance (C160) makes the measure of the hitting set the same for all directions (half-turns about bisectors are transitive); Fubini over the product of the two unit balls evaluates it |
| C165 | `s2_to_fz_laue` on a batch of one direction | directions with an equivalent more than 2 EPS inside the sector are reduced by C88; the images of a part of the sector are disjoint (C161); the rest lies in slabs along the walls, whose volume is bounded by a shear |
| C166 | `s2_fibonacci`, both modes | the azimuths are the multiples of the inverse golden ratio mod 1; blocks of Fibonacci length hit every arc up to a bounded error, and n splits into blocks of one Fibonacci length near √n (Lemmas/Golden.lean); open and closed sets through weak convergence on the rectangle of heights and azimuths (portmanteau) |
| C167 | `sample_s2_fz_laue_fibonacci` | C166 applied to the open sector (accepted, area by C161 and C163) and to the closed sector widened by 2 EPS (contains everything accepted) |
| C168 | `sample_s2_fz_laue_rosca` | the regular grid converges weakly to the uniform distribution on the square; the part of the square over an open set of directions, off the diagonals, is open and its area is 2/π times the solid angle (C155); upper bounds from the complement |
| C169 | `so3_cu_rand` | the draw is scaled to the cube, `cu2ho` keeps volumes (C156), the homochoric image of an open set of orientations is measurable (Lusin-Souslin) and has its measure (C157), and the result is near the exact orientation (C106); the lower bound from the complement |
| C170 | `so3_cubochoric_grid` | every point of an open part of the cube has its grid node in the part from some size on (continuity of measure along increasing sets), each node has a cell of the same volume; `cu2qu` is continuous off the planes of symmetry and the surface where `ho2ax` switches, a null set; closed sets from the complement; then C169 |
| C171 | `so3_fibonacci` | coordinates (share of the range, fractional part of the first angle, index of the second angle among its 1.5e24 values): the points with a given index are a residue class, along which the first angle is equidistributed (irrational rotation, counted in blocks of the denominator of a rational approximation); boxes generate, so weak convergence and the portmanteau theorem; the limit is `so3_uniform_quat` (C162) with the last angle rounded |
| C172 | `s2_in_fz_laue` in floating point | rounding to nearest is monotone, so the comparisons of the classes 1 to 9 keep every direction with third component in [0, 1]; converse from the relative error. Counterexample in single precision, evaluated operation by operation: a cubic image with third component `1 + 2^-23` is NaN and rejected. Cubic classes: relative errors through sqrt, tan and arccos bound the computed polar-angle bound from below; the tolerance of the code absorbs them. Converse by the same bounds from above. Missing: third components above 1 (false) |
| C173 | `apply_geometry` | normalised affine image: direction characterised by uniqueness of the unit vector on a ray; two pixels with one direction are pulled back by the transposed matrix and compared in the third coordinate; the third coordinate of the pulled-back Bruker translation is the detector distance |
| C174 | `get_eigenvectors` | contract of `eigh` (orthonormal columns, ascending eigenvalues) on the covariance of C32; captured sum of squares = weighted sum of eigenvalues with weights in [0, 1] (Bessel) adding up to k, at most the k largest (Ky Fan); residual by Pythagoras. Missing: empty batches (NaN), features without variation for the correlation |

Rows for later properties are added here as the model grows; MANIFEST.json carries the note of every property
(taken from the docstrings of the theorems by `tools/manifest.py`).

## What is and is not modelled

Modelled function by function: `s2_and_so3/{quaternions,laue_generators,laue_fz_ori,laue_fz_s2,orientations,sphere,sampling}.py`,
`lie_algebra/se3.py`, `ebsd/{geometry,experiment_pats,master_pattern,indexing,refining}.py`, `utils/*` except plotting and IO,
`harmonics/{wigner_d_logspace,wigner_d_xnum}.py` `harmonics/sht.py` and `harmonics/sht_cc.py`,
`preprocessing/{clahe,nlpar,radial_mask,resampling}.py`, `simulation/monte_carlo.py`,
`crystallography/{unit_cell,groups,kvectors,diffraction,ebsd_master}.py`, `crystallography/scattering_factors/*` and
`crystallography/ebsd_mc.py` including the OpenCL kernel (as C code on reals and 32-bit words).

Not modelled: HDF5 access itself (the arithmetic of `read_master_pattern` is modelled), printing and matplotlib demos, the tabulated Lobato-Van Dyck
coefficients (an arbitrary table), autograd itself (the optimiser of the gradient refinement is an arbitrary
trajectory), `torch.linalg` internals (QR, `eigh`, `matrix_exp` are taken at their documented meaning), floating-point
rounding (except in C134, where the scores and the rounding of the k-NN buffer are arbitrary, and in C138-C141, C149 and C150, where every
operation of the quaternion routines is rounded to nearest; there overflow, underflow and fused multiply-add are left out and
`torch.acos` is exact on [-1, 1]).

## Findings

Every theorem whose name ends in `_fails` is a proved counterexample inside the model, i.e. a place where the code at the
pinned commit does not do what a user would rely on.  The main ones: wrong Laue class for space groups 149-155 and 194
(C35), wrong `pg_num`/`xtal_system` for most space groups (C55), the second setting of `sg_operators` (C58), the PCA slice
(C46), several phases in `combine_indexing_results` (C43, C45), stale virtual binning (C44), lost Monte Carlo counts (C51),
gradient refinement that keeps only deteriorations (C87), refinement of single patterns (C85, C87), missing k-vectors
(C91), duplicated direct beam (C93), multi-voltage and absorption-free master patterns (C94), joint bins of the mutual
information (C37), odd image sizes in the blur (C64), half-turns in `om2qu` (C14), the column order of `xyz_to_theta_phi`
(C22), negative tilts (C26), binned coordinates (C29), quantised k-NN with a non-angular metric (C30).
