{
 "claims": [
  {
   "property": "C01",
   "status": "proved",
   "theorems": [
    "Verif.C01_prod_raw",
    "Verif.C01_prod",
    "Verif.C01_pos_real",
    "Verif.C01_triple",
    "Verif.C01_axis",
    "Verif.C01_conj"
   ],
   "note": "Proved in full on the model (assumptions of DESIGN.md). C01_prod_raw: C01: `qu_prod_raw` is Hamilton's product. || C01_prod: C01: `qu_prod` is Hamilton's product up to sign, with non-negative scalar part. || C01_pos_real: C01: `qu_prod_pos_real` is the magnitude of the scalar part of the product."
  },
  {
   "property": "C02",
   "status": "proved",
   "theorems": [
    "Verif.C02_std",
    "Verif.C02_std_canonical",
    "Verif.C02_norm_std"
   ],
   "note": "Proved in full on the model (assumptions of DESIGN.md). C02_std: C02: standardisation returns `\u00b1q` with non-negative scalar part, is idempotent and leaves the rotation `v \u21a6 h v h*` unchanged. || C02_std_canonical: C02: two quaternions equal up to sign have the same standardisation, unless the scalar part is zero (180 degree rotations). || C02_norm_std: C02: `qu_norm_std` of a non-zero quaternion is a standardised unit quaternion proportional to the input."
  },
  {
   "property": "C03",
   "status": "proved",
   "theorems": [
    "Verif.C03_apply",
    "Verif.C03_isometry",
    "Verif.C03_compose",
    "Verif.C03_inverse"
   ],
   "note": "Proved in full on the model (assumptions of DESIGN.md). C03_apply: C03: `qu_apply` is the rotation `v \u21a6 h v h*`. || C03_isometry: C03: for unit quaternions `qu_apply` preserves dot products and cross products (it is a proper rotation) and is linear. || C03_compose: C03: composition law, with the standardised product."
  },
  {
   "property": "C04",
   "status": "partial",
   "theorems": [
    "Verif.C04_rotate_partial",
    "Verif.C04_antiparallel_fails"
   ],
   "note": "C04_rotate_partial: C04 (partial: pairs that are not (anti)parallel within the code's threshold): the returned quaternion is a unit quaternion and takes `p` to `q`. || C04_antiparallel_fails: C04 fails for antiparallel points: the identity is returned although `p` must go to `-p`."
  },
  {
   "property": "C05",
   "status": "proved",
   "theorems": [
    "Verif.C05_angle"
   ],
   "note": "Proved in full on the model (assumptions of DESIGN.md). C05_angle: C05: the angle of a standardised unit quaternion lies in `[0, \u03c0]`, determines and is determined by the scalar part, and does not depend on the sign of the quaternion."
  },
  {
   "property": "C06",
   "status": "proved",
   "theorems": [
    "Verif.C06_group",
    "Verif.C06_reject",
    "Verif.C06_id_zero_is_cubic"
   ],
   "note": "Proved in full on the model (assumptions of DESIGN.md). C06_group: C06: for every Laue id 1..11 the table consists of unit quaternions, starts with the identity, has no duplicates up to sign, is closed under product and inverse up to sign, has the size announced by `get_laue_mult`, which is half the order of the Laue point group, and its members are, up to sign, exactly the rotations generated by the symmetry axes of the Laue class. || C06_reject: C06: ids above 11 are rejected ... || C06_id_zero_is_cubic: ... but not the ids `0, -1, ..., -10`: id 0 silently selects the cubic group (Python's negative indexing)."
  },
  {
   "property": "C07",
   "status": "proved",
   "theorems": [
    "Verif.C07_reduce",
    "Verif.C07_equiv"
   ],
   "note": "Proved in full on the model (assumptions of DESIGN.md). C07_reduce: C07: reduction to the fundamental zone returns a symmetric equivalent of the input, with non-negative scalar part, of unit norm if the input has unit norm, and no symmetric equivalent of the input has a smaller rotation angle. || C07_equiv: The equivalents listed by `ori_equiv_laue` are exactly the symmetric equivalents up to sign."
  },
  {
   "property": "C08",
   "status": "proved",
   "theorems": [
    "Verif.C08_angle",
    "Verif.C08_canonical"
   ],
   "note": "Proved in full on the model (assumptions of DESIGN.md). C08_angle: C08: for symmetric equivalents (and for `-q`) the reduced orientations have the same scalar part, hence the same rotation angle. || C08_canonical: C08: if the smallest rotation angle is attained by a unique equivalent (up to sign) and is not a half turn, equivalent inputs give the very same output."
  },
  {
   "property": "C09",
   "status": "proved",
   "theorems": [
    "Verif.C09_closed_form",
    "Verif.C09_reject",
    "Verif.C09_brute"
   ],
   "note": "Proved in full on the model (assumptions of DESIGN.md). C09_closed_form: C09: for quaternions with non-negative scalar part the closed-form test answers, for each of the 11 Laue groups, exactly whether the orientation has minimal rotation angle among its symmetric equivalents; all other ids are rejected. || C09_reject: C09: the closed form rejects every id outside 1..11. || C09_brute: C09: the brute-force test decides zone membership too (for any sign of the scalar part), so both tests agree on quaternions with non-negative scalar part."
  },
  {
   "property": "C10",
   "status": "proved",
   "theorems": [
    "Verif.C10_inside"
   ],
   "note": "Proved in full on the model (assumptions of DESIGN.md). C10_inside: C10: the reduction always lands in the closed-form fundamental zone, and reducing again changes neither the scalar part nor the rotation angle."
  },
  {
   "property": "C11",
   "status": "partial",
   "theorems": [
    "Verif.C11_invariant_partial",
    "Verif.C11_misori",
    "Verif.C11_disorientation",
    "Verif.C11_zero_partial",
    "Verif.C11_same_as_ori_angle",
    "Verif.C11_right_equiv_fails",
    "Verif.C11_triangle",
    "Verif.C11_triangle_two_groups",
    "Verif.C11_lipschitz"
   ],
   "note": "C11_invariant_partial: C11 (partial): the disorientation angle is unchanged when `q1` is replaced by `\u00b1h * q1` with `h` in the group of the *second* id, when `q2` is replaced by `\u00b1h * q2` with `h` in the group of the *first* id, and when the two orientations and ids are swapped. Missing: invariance under the library's own notion of equivalence `q * h` -- see `C11_right_equiv_fails`. || C11_zero_partial: C11: for one Laue group the disorientation angle of unit quaternions lies in `[0, \u03c0]` and is zero exactly when one orientation is `h * q` of the other for some group member `h`. || C11_right_equiv_fails: C11 fails for the library's own equivalence `q * g` (as returned by `ori_equiv_laue` and used by `ori_to_fz_laue`): two monoclinic orientations that are symmetric equivalents get the maximal disorientation angle \u03c0."
  },
  {
   "property": "C12",
   "status": "proved",
   "theorems": [
    "Verif.C12_sample"
   ],
   "note": "Proved in full on the model (assumptions of DESIGN.md). C12_sample: C12: whatever permutation is drawn (or none), the sampled orientations are, as a multiset, exactly the grid orientations that lie in the fundamental zone: no member is lost or duplicated and every returned orientation passes the closed-form test."
  },
  {
   "property": "C13",
   "status": "proved",
   "theorems": [
    "Verif.C13_rotation",
    "Verif.C13_action",
    "Verif.C13_apply",
    "Verif.C13_multiplicative",
    "Verif.C13_fibre",
    "Verif.C13_surjective"
   ],
   "note": "Proved in full on the model (assumptions of DESIGN.md). C13_rotation: C13: `qu2om` of a unit quaternion is a proper rotation matrix. || C13_action: C13: the matrix acts on vectors as the quaternion `v \u21a6 q v q*`, and as `qu_apply`. || C13_apply: C13: `qu2om` and `qu_apply` agree."
  },
  {
   "property": "C14",
   "status": "partial",
   "theorems": [
    "Verif.C14_positive",
    "Verif.C14_roundtrip_partial",
    "Verif.C14_halfturn",
    "Verif.C14_matrix_partial",
    "Verif.C14_halfturn_fails"
   ],
   "note": "C14_roundtrip_partial: C14, partial: the round trip returns `q` or `-q` whenever `q` is not a half-turn. Missing: half turns (`w = 0`), where it is false, see `C14_halfturn_fails`. || C14_matrix_partial: C14, matrix side, partial: `qu2om (om2qu R) = R` for every rotation matrix that is not a half-turn (`trace R \u2260 -1`). || C14_halfturn_fails: C14 is false for half-turns whose axis has components of opposite sign: the 180\u00b0 rotation about `(3, -4, 0)/5` comes back as the one about `(3, 4, 0)/5`."
  },
  {
   "property": "C15",
   "status": "proved",
   "theorems": [
    "Verif.C15_rotation",
    "Verif.C15_retraction",
    "Verif.C15_quat"
   ],
   "note": "Proved in full on the model (assumptions of DESIGN.md). C15_rotation: C15: every linearly independent pair is mapped to a rotation matrix whose first row is `a1` normalised and whose second row lies in the span, on the side of `a2` (Gram\u2013Schmidt). || C15_retraction: C15: `zh2om` inverts `om2zh` on rotation matrices. || C15_quat: C15: the quaternion route `qu2zh` then `zh2qu` returns every unit quaternion with positive scalar part."
  },
  {
   "property": "C16",
   "status": "partial",
   "theorems": [
    "Verif.C16_ax2qu",
    "Verif.C16_roundtrip",
    "Verif.C16_qu2ax_partial",
    "Verif.C16_negative_fails"
   ],
   "note": "C16_qu2ax_partial: C16, partial: for a non-negative scalar part `qu2ax` describes the same rotation as `q`. Missing: negative scalar parts, where it is false (`C16_negative_fails`). || C16_negative_fails: C16 is false for negative scalar parts: `qu2ax (-0.6, 0.8, 0, 0)` describes the inverse rotation."
  },
  {
   "property": "C17",
   "status": "proved",
   "theorems": [
    "Verif.C17_roundtrip",
    "Verif.C17_roundtrip_ro",
    "Verif.C17_quaternion"
   ],
   "note": "Proved in full on the model (assumptions of DESIGN.md). C17_roundtrip: C17: `ro2ax` inverts `ax2ro` on unit axes and angles of `(0, \u03c0)`. || C17_roundtrip_ro: C17: conversely `ax2ro` inverts `ro2ax` on unit axes and finite positive magnitudes. || C17_quaternion: C17: going through Rodrigues vectors, `ro2qu (qu2ro q)` is `\u00b1q` for every unit quaternion whose scalar part is zero or at least the infinity threshold (1e-10) in magnitude."
  },
  {
   "property": "C18",
   "status": "proved",
   "theorems": [
    "Verif.C18_exact",
    "Verif.C18_small_angle",
    "Verif.C18_negative_angle_not_rotation"
   ],
   "note": "Proved in full on the model (assumptions of DESIGN.md). C18_exact: C18: above the small-angle switch `ax2om` is the rotation matrix of the pair: proper orthogonal, equal to `qu2om (ax2qu a)`, and acting as the textbook rotation. || C18_small_angle: C18: on `[0, 0.05]` the two-term Taylor factors are used; every entry is then within `1e-6` of the exact rotation matrix. || C18_negative_angle_not_rotation: Finding (outside C18's guard): for negative angles the code also takes the Taylor branch, and the result is not a rotation matrix (here: axis `z`, angle `-2`)."
  },
  {
   "property": "C19",
   "status": "proved",
   "theorems": [
    "Verif.C19_bu2qu",
    "Verif.C19_periodic",
    "Verif.C19_roundtrip"
   ],
   "note": "Proved in full on the model (assumptions of DESIGN.md). C19_bu2qu: C19: `bu2qu` is a unit quaternion with non-negative scalar part whose rotation is the composition of the three elementary (passive, i.e. negative-angle) rotations: `phi1` about z, `Phi` about x, `phi2` about z. || C19_periodic: C19: the rotation depends on each angle only modulo `2\u03c0`. || C19_roundtrip: C19: `bu2qu` inverts `qu2bu` up to sign, and the angles lie in the Bunge ranges."
  },
  {
   "property": "C20",
   "status": "proved",
   "theorems": [
    "Verif.C20_range",
    "Verif.C20_roundtrip_reflect",
    "Verif.C20_roundtrip",
    "Verif.C20_pole",
    "Verif.C20_forward"
   ],
   "note": "Proved in full on the model (assumptions of DESIGN.md). C20_range: C20: the projection lands in `[-1, 1]\u00b2`. || C20_roundtrip_reflect: C20: `inv_rosca_lambert \u2218 rosca_lambert` reflects every unit vector that is not a pole into the upper hemisphere. || C20_roundtrip: C20: on the upper hemisphere without the pole the projection is inverted exactly."
  },
  {
   "property": "C21",
   "status": "proved",
   "theorems": [
    "Verif.C21_halves",
    "Verif.C21_injective"
   ],
   "note": "Proved in full on the model (assumptions of DESIGN.md). C21_halves: C21: points with `z \u2265 0` go to the left half `[-1,0] \u00d7 [-1,1]`, points with `z < 0` of the sphere to the *open* right half `(0,1) \u00d7 [-1,1]`, so no two points of different hemispheres share an image. || C21_injective: C21: the side-by-side map is injective on the unit sphere minus the poles."
  },
  {
   "property": "C22",
   "status": "partial",
   "theorems": [
    "Verif.C22_unit",
    "Verif.C22_roundtrip_partial",
    "Verif.C22_order_fails",
    "Verif.C22_recover"
   ],
   "note": "C22_roundtrip_partial: C22, partial: on the principal domain `xyz_to_theta_phi` recovers both angles, but in the opposite order: the first column is the second argument of `theta_phi_to_xyz`. Missing: the round trip proper, which is false (`C22_order_fails`). || C22_order_fails: C22 is false as a round trip: the columns come back swapped."
  },
  {
   "property": "C23",
   "status": "proved",
   "theorems": [
    "Verif.C23_exp_om",
    "Verif.C23_quat_agrees",
    "Verif.C23_w_exp",
    "Verif.C23_quat_small"
   ],
   "note": "Proved in full on the model (assumptions of DESIGN.md). C23_exp_om: C23: above the switch the rotation block of `se3_exp_map_om` is a proper rotation: the textbook rotation by `|omega|` about `omega/|omega|`; the last row is `(0,0,0,1)`. || C23_quat_agrees: C23: above the switch of `se3_exp_map_quat` (0.05) both exponential maps return the same pose. || C23_w_exp: C23: `w_exp` is the same rotation."
  },
  {
   "property": "C24",
   "status": "proved",
   "theorems": [
    "Verif.C24_skew",
    "Verif.C24_inverse",
    "Verif.C24_singular"
   ],
   "note": "Proved in full on the model (assumptions of DESIGN.md). C24_skew: C24: `skew` is the cross-product matrix. || C24_inverse: C24: above the switch, and as long as the angle is no multiple of `2\u03c0` (where `V` has no inverse), `w_to_v` and `w_to_v_inv` are inverse matrices. || C24_singular: C24: at angle `2\u03c0` the matrix `w_to_v` is singular, so the exclusion is necessary."
  },
  {
   "property": "C25",
   "status": "proved",
   "theorems": [
    "Verif.C25_log_exp",
    "Verif.C25_exp_log"
   ],
   "note": "Proved in full on the model (assumptions of DESIGN.md). C25_log_exp: C25: the logarithms invert the exponentials for rotation angles between the switch and `\u03c0`. || C25_exp_log: C25: conversely the exponential inverts the logarithm on poses whose rotation angle lies between the switch and `\u03c0` (every rotation matrix is such an axis-angle matrix)."
  },
  {
   "property": "C26",
   "status": "partial",
   "theorems": [
    "Verif.C26_rotation",
    "Verif.C26_round_trip_partial",
    "Verif.C26_sign_lost",
    "Verif.C26_fails",
    "Verif.C26_fails_pc"
   ],
   "note": "C26_round_trip_partial: C26 for non-negative tilts: pattern centre and both tilts are recovered. Missing: negative primary tilts, which is what `EBSDGeometry` always passes (see `C26_fails`). || C26_fails: C26 is violated at the default geometry (sample tilt 70\u00b0, detector tilt 0\u00b0, pattern centre `(\u00bd,\u00bd,\u00bd)`, 60\u00d760 detector): `EBSDGeometry` passes the primary tilt `0 - 70`, and the recovered tilt is `+70`."
  },
  {
   "property": "C27",
   "status": "partial",
   "theorems": [
    "Verif.C27_round_trip_partial",
    "Verif.C27_scale",
    "Verif.C27_fails"
   ],
   "note": "C27_round_trip_partial: C27 for an exactly orthogonal pose (all rotation components frozen or zero, or a rotation angle above the small-angle switch 0.001 of the exponential map): for every reachable geometry, every scan position that is not itself in the detector plane, and every detector coordinate, back-projecting the projected coordinate returns it. Missing: rotation angles in `(0, 0.001]`, where the truncated series is not orthogonal (`C27_fails`). || C27_fails: C27 is violated for small rotations: an in-plane rotation by 0.001 rad scales the returned coordinate."
  },
  {
   "property": "C28",
   "status": "proved",
   "theorems": [
    "Verif.C28_flag",
    "Verif.C28_history",
    "Verif.C28_frozen",
    "Verif.C28_all_frozen",
    "Verif.C28_gradient",
    "Verif.C28_selects",
    "Verif.C28_selects_set"
   ],
   "note": "Proved in full on the model (assumptions of DESIGN.md). C28_flag: The flag `opt_se3` always says whether some component is live. || C28_history: C28: after every history, each half of the mask is the last non-`None` request for that half (or the initial mask), the parameter vector is the last one written, and nothing else changed. || C28_frozen: C28: a component whose mask entry is `False` contributes nothing: two geometries with the same base pose and mask which agree on the live components have the same `get_detector2sample`."
  },
  {
   "property": "C29",
   "status": "partial",
   "theorems": [
    "Verif.C29_shape_partial",
    "Verif.C29_axis_exact_iff_partial",
    "Verif.C29_fails"
   ],
   "note": "C29_shape_partial: C29, the part that holds: shapes that are not multiples of the binning are rejected, the number of coordinates is `(H/b)(W/b)`, and the first coordinate of an axis is the first block centre. Missing: the other block centres (`C29_axis_exact_iff`, `C29_fails`). || C29_axis_exact_iff_partial: C29, exact account of one axis: with `n = b m` pixels, the code returns the `m` block centres only when `m \u2264 1`; for `m \u2265 2` every coordinate but the first is too large. || C29_fails: C29 is violated on a 4-pixel axis without binning: `0, 4/3, 8/3, 4` instead of `0, 1, 2, 3`."
  },
  {
   "property": "C30",
   "status": "partial",
   "theorems": [
    "Verif.C30_chunked_partial",
    "Verif.C30_distances_partial",
    "Verif.C30_small_chunk_raises",
    "Verif.C30_quantised_metric_fails"
   ],
   "note": "C30_chunked_partial: C30 + C31 (partial: not for the quantised path with a metric other than `angular`, see `C30_quantised_metric_fails`): whatever the uninitialised memory, the split of the data into chunks (each with at least `k` rows), the schedule of `query_all` / `query_chunk` calls (every query searched once per chunk) and the tie-breaking and ordering of every `topk` call, the session succeeds and returns for every query a correct top-k answer over the concatenation of all chunks: `k` distinct global indices, each with the score of that very row, best first, none of the others better. || C30_distances_partial: C30: the reported distances are the first `k` entries of the sorted list of all distances; in particular they do not depend on the chunking, the schedule or the tie-breaking. || C30_quantised_metric_fails: C30 fails on the quantised CPU path for the Euclidean metric (its default is `quantized_via_ao = True`): for the query `1` and the data `1, 5` the row at distance 16 is returned instead of the exact match, whatever `topk` does."
  },
  {
   "property": "C31",
   "status": "partial",
   "theorems": [
    "Verif.C31_valid_partial",
    "Verif.Inexact.C31_index_width_partial",
    "Verif.Inexact.C31_index_width_fails"
   ],
   "note": "C31_valid_partial: C31 (same exception as C30): every reported index is a valid index of the concatenated data and the reported distance is the distance to that row. || C31_index_width_partial: C31, width of the stored indices (partial, see `C31_index_width_fails`): below 2^31 rows every index is stored as it is. || C31_index_width_fails: C31 fails for larger data sets: exactly where 32 bits no longer suffice the class switches to them, and the row number 2^31 comes back as -2^31."
  },
  {
   "property": "C32",
   "status": "partial",
   "theorems": [
    "Verif.C32_exact_partial",
    "Verif.C32_single_observation",
    "Verif.C32_chunking_invariant_partial",
    "Verif.C32_correlation_partial",
    "Verif.C32_empty_batch_fails"
   ],
   "note": "C32_exact_partial: C32 (non-empty batches; see `C32_empty_batch_fails`): after any sequence of batches containing at least two observations in total, the running mean is the sample mean and `get_covmat` returns the sample covariance of the concatenation of all batches. || C32_chunking_invariant_partial: C32: the result does not depend on how the observations were batched. || C32_correlation_partial: C32, `correlation=True`: when every feature varies, `get_covmat` is the matrix of Pearson correlation coefficients, with ones on the diagonal. || C32_empty_batch_fails: C32 fails for empty batches: one empty batch (for example the last chunk of a loop) turns the mean into NaN for good, and with the next non-empty batch the covariance too."
  },
  {
   "property": "C33",
   "status": "proved",
   "theorems": [
    "Verif.C33_product_sorted",
    "Verif.C33_small_prime_factors",
    "Verif.C33_zero_diverges",
    "Verif.C33_large_composite_possible",
    "Verif.C33_sieve"
   ],
   "note": "Proved in full on the model (assumptions of DESIGN.md). C33_product_sorted: C33: whatever the random draws and for however long it runs, a returned list is sorted and multiplies back to the argument. || C33_small_prime_factors: C33: for 1 \u2264 N < 2^16 the function returns (given enough steps) exactly the list of prime factors with multiplicity, in increasing order. || C33_zero_diverges: C33: `FactorECM(0)` never returns."
  },
  {
   "property": "C34",
   "status": "proved",
   "theorems": [
    "Verif.C34_product",
    "Verif.C34_balanced",
    "Verif.C34_returns"
   ],
   "note": "Proved in full on the model (assumptions of DESIGN.md). C34_product: C34: the two returned numbers multiply to `n`, for every random tape. || C34_balanced: C34: the split is balanced up to the largest prime factor: if no prime factor of `n` exceeds `P`, neither returned number exceeds `P` times the other (1 \u2264 n < 2^16). || C34_returns: C34: for 1 \u2264 n < 2^16 it does return."
  },
  {
   "property": "C35",
   "status": "partial",
   "theorems": [
    "Verif.C35_space_group_partial",
    "Verif.C35_fails"
   ],
   "note": "C35_space_group_partial: C35 with the exact set of exceptions: for every integer, numbers outside 1..230 are rejected, and inside the answer is the Laue class of International Tables except for 149..155 (point group 32, reported as `-3`) and 194 (`6/mmm`, reported as `m-3`). Missing: those eight space groups (`C35_fails`). || C35_fails: The wrong answers of `space_group_to_laue`."
  },
  {
   "property": "C36",
   "status": "proved",
   "theorems": [
    "Verif.C36_point_group",
    "Verif.C36_symbols_distinct"
   ],
   "note": "Proved in full on the model (assumptions of DESIGN.md). C36_point_group: C36: every crystallographic point group symbol gets its Laue class, and every other string is rejected. || C36_symbols_distinct: The specification's list has 32 different symbols."
  },
  {
   "property": "C37",
   "status": "partial",
   "theorems": [
    "Verif.MI.C37_binned_partial",
    "Verif.MI.C37_binned_one_fails",
    "Verif.MI.C37_joint_bin_partial",
    "Verif.MI.C37_mi_total",
    "Verif.MI.C37_joint_bin_fails"
   ],
   "note": "C37_binned_partial: C37 (binned_nmi, what holds): for images with values in `[0, 1)` the joint histogram counts in each cell exactly the pixel pairs whose two individual bins are those of the cell, and the counts sum to the number of pixels. Missing: pixels of value exactly 1, which the docstring admits; see `C37_binned_one_fails`. || C37_binned_one_fails: C37 violation (binned_nmi at the upper end of the documented range 0 to 1): a pixel pair `(1, 3/4)` is dropped from the histogram, and a pair `(0, 1)` is counted in the cell of `x`-bin 1 and `y`-bin 0, that of the pair `(1/2, 0)`. || C37_joint_bin_partial: C37 (mutual_information): which pairs of individual bins share a joint bin: equal pairs, and `(i, n-1)` with `(i+1, 0)`. The second kind makes the claim false for every `n \u2265 2`. || C37_joint_bin_fails: C37 violation (mutual_information): with two bins the images `[0, 1]` and `[1, 0]`, whose pixels are all in different bins, get a mutual information of `2 log 2`: twice the entropy of either image, which no pair of two-bin images can have. The same image against itself gives `log 2`."
  },
  {
   "property": "C38",
   "status": "proved",
   "theorems": [
    "Verif.Clahe.C38_tiles",
    "Verif.Clahe.C38_mass",
    "Verif.Clahe.C38_lut",
    "Verif.Clahe.C38_output",
    "Verif.Clahe.C38_succeeds",
    "Verif.Clahe.C38_transpose"
   ],
   "note": "Proved in full on the model (assumptions of DESIGN.md). C38_tiles: C38 (tiling): the padded image is cut exactly into `grid` tiles along each axis, and each padded row (column) lies in exactly one tile at exactly one offset. || C38_mass: C38 (clipping): for every histogram of a tile (non-negative counts summing to the number of pixels), every clip limit and every number of bins, the clipped and redistributed histogram has the same total, has no negative entry, and no entry exceeds the limit by more than the evenly shared excess plus one. || C38_lut: C38 (look-up table): under the same hypotheses the table is non-decreasing, within `[0, 1]`, and its last entry is one."
  },
  {
   "property": "C39",
   "status": "partial",
   "theorems": [
    "Verif.Nlpar.C39_convex",
    "Verif.Nlpar.C39_range",
    "Verif.Nlpar.C39_radius_zero_fails",
    "Verif.Nlpar.C39_duplicate_fails"
   ],
   "note": "C39_radius_zero_fails: C39 violation: a radius of 0 raises: there is no neighbour to estimate the noise from. || C39_duplicate_fails: C39 violation: with radius 1, if any two neighbouring patterns of the scan are identical the estimated noise is zero there and the result is not finite (0/0 at the pattern itself)."
  },
  {
   "property": "C40",
   "status": "proved",
   "theorems": [
    "Verif.C40_disc",
    "Verif.C40_default",
    "Verif.C40_symmetric"
   ],
   "note": "Proved in full on the model (assumptions of DESIGN.md). C40_disc: C40: the mask is `True` exactly on the pixels whose Euclidean distance to the centre `(c\u2080 (h-1), c\u2081 (w-1))` is below the radius. || C40_default: C40: without a radius the disc has half the smaller dimension as radius. || C40_symmetric: C40: with the default centre the mask is symmetric under both mirror reflections of the image."
  },
  {
   "property": "C41",
   "status": "proved",
   "theorems": [
    "Verif.C41_minmax",
    "Verif.C41_zeromean",
    "Verif.C41_standard",
    "Verif.C41_invalid"
   ],
   "note": "Proved in full on the model (assumptions of DESIGN.md). C41_minmax: C41 (`minmax`): each pattern with at least one pixel is mapped by an increasing affine map `x \u21a6 a x + b` that depends on this pattern only; the result lies in `[0,1)`, attains 0, and its range is `(max-min)/(max-min+10\u207b\u2074)`. || C41_zeromean: C41 (`zeromean`): differences of pixels are kept and the sum of each pattern is zero. || C41_standard: C41 (`standard`): a pattern that is not constant gets mean zero and unbiased variance one."
  },
  {
   "property": "C42",
   "status": "partial",
   "theorems": [
    "Verif.C42_read_your_writes_partial",
    "Verif.C42_duplicate_index",
    "Verif.C42_aliasing_fails",
    "Verif.C42_set_at_raises_iff",
    "Verif.C42_set_all_raises_iff"
   ],
   "note": "C42_read_your_writes_partial: C42 (each tensor handed to at most one setter, see `C42_aliasing_fails`; no duplicated index inside one call, see `C42_duplicate_index`): after any history of tensor creations and setter calls on any number of objects that raises nowhere, reading any list of indices of an object that has been set returns, for every index (negative ones counted from the end), the value most recently written to that pattern of that object. || C42_aliasing_fails: C42 fails under aliasing: one orientation tensor handed to two objects, then an indexed update of the first object, silently changes the second one."
  },
  {
   "property": "C43",
   "status": "partial",
   "theorems": [
    "Verif.C43_loop_partial",
    "Verif.C43_single_phase_partial",
    "Verif.C43_multi_phase_fails",
    "Verif.C43_nonzero_phase_fails"
   ],
   "note": "C43_loop_partial: C43, the comparison loop alone (the call itself raises before reaching it, see `C43_multi_phase_fails`): for any number of phases with finite metrics, in any insertion order, the result is the phase and orientation of a candidate with the best metric. || C43_single_phase_partial: C43, one phase stored under id 0: every pattern gets the first (best) stored match. || C43_multi_phase_fails: C43 fails: with results of two or more distinct phases the call always raises, and with a single phase whose id is not 0 it raises too. || C43_nonzero_phase_fails: C43 fails: a single phase whose id is not 0 (as set by the caller) makes the call raise."
  },
  {
   "property": "C44",
   "status": "partial",
   "theorems": [
    "Verif.C44_unbinned_partial",
    "Verif.C44_binned_partial",
    "Verif.C44_first_binning_partial",
    "Verif.C44_returns",
    "Verif.C44_empty_never_returns",
    "Verif.C44_stale_binning_fails"
   ],
   "note": "C44_unbinned_partial: C44, no virtual binning: after any call history, whatever it left in the caches and whatever the random draws, `interpolate` returns at every direction the sample of the current pattern (the initial one with all normalisations and CLAHE calls applied in order), in the order of the directions. || C44_binned_partial: C44, virtual binning (partial, see `C44_stale_binning_fails`): if the last `bin` call used the requested factor and only interpolations followed it, the pattern sampled is the current pattern binned by that factor. || C44_first_binning_partial: C44, virtual binning on an object whose binned cache was never filled. || C44_stale_binning_fails: C44 fails with virtual binning: interpolate with factor 2, normalise to zero mean, interpolate again: the second call still samples the old pattern (value 1 instead of 0)."
  },
  {
   "property": "C45",
   "status": "partial",
   "theorems": [
    "Verif.C45_topk_partial",
    "Verif.C45_best_match_partial",
    "Verif.C45_mean_flag_ignored_fails",
    "Verif.C45_chunk_independent_partial",
    "Verif.C45_short_last_chunk_fails",
    "Verif.C45_multi_phase_fails"
   ],
   "note": "C45_topk_partial: C45, one phase (partial: dictionary chunks with at least `k` rows, see `C45_short_last_chunk_fails`; not the quantised non-angular path, see `C30_quantised_metric_fails`; the experimental pattern is centred whatever `subtract_exp_pat_mean` says when searched in chunks, see `C45_mean_flag_ignored_fails`): whatever the chunk sizes, the uninitialised memory and the tie-breaking, the stored result of pattern `r` is a correct top-k answer over the *whole* dictionary: orientations at `k` distinct positions, each with the metric between the prepared pattern and the centred simulated pattern of that orientation, best first, nothing better left out. || C45_best_match_partial: C45, whole call with one master pattern and `top_k_matches \u2265 1`: every pattern ends up with phase 0 and an orientation of the dictionary whose metric is at least as good as that of every other dictionary orientation. || C45_mean_flag_ignored_fails: `subtract_exp_pat_mean=False` is ignored when the patterns are searched in chunks: the pattern `3` against the simulated pattern `0` is reported at squared distance 0 instead of 9. || C45_chunk_independent_partial: C45, default metric: the stored metric values do not depend on either chunk size nor on `subtract_exp_pat_mean`; they are the `k` largest dot products over the dictionary. || C45_short_last_chunk_fails: C45 fails when the last dictionary chunk is shorter than `top_k_matches`: the call raises, for any data. || C45_multi_phase_fails: C45 fails for several master patterns: the call always raises (in `combine_indexing_results`)."
  },
  {
   "property": "C46",
   "status": "partial",
   "theorems": [
    "Verif.C46_leading_iff_partial",
    "Verif.C46_fails"
   ],
   "note": "C46_leading_iff_partial: C46 holds exactly for tiny problems: the slice keeps the `n` columns with the largest eigenvalues (`eigh` sorts ascending: the last `n`) if and only if the number of pixels plus `n` is at most 300. || C46_fails: C46 fails for every realistic problem: with at least 300 pixels and at most 300 components *no* component at all is kept, and with more than 300 components exactly 300 trailing ones are."
  },
  {
   "property": "C47",
   "status": "partial",
   "theorems": [
    "Verif.C47_bijection",
    "Verif.C47_size",
    "Verif.C47_lexicographic",
    "Verif.C47_inverse_any_estimate",
    "Verif.C47_inverse",
    "Verif.C47_inverse",
    "Verif.C47_int32_partial",
    "Verif.C47_int32_fails"
   ],
   "note": "C47_int32_partial: On int32 tensors the index is exact up to degree 1624. || C47_int32_fails: From degree 1625 on the int32 arithmetic overflows although the position itself (about 7.2e8) fits: the first entry of degree 1625 gets a negative position."
  },
  {
   "property": "C48",
   "status": "partial",
   "theorems": [
    "Verif.C48_norm",
    "Verif.C48_norm_range",
    "Verif.C48_sum",
    "Verif.C48_sum_error",
    "Verif.C48_to_fp_partial",
    "Verif.C48_to_fp_fails",
    "Verif.C48_to_fp_error"
   ],
   "note": "C48_to_fp_partial: `xnum_to_fp` returns the value for exponents `-1, 0, 1`. Missing: every other exponent (see `C48_to_fp_fails`). || C48_to_fp_fails: For an exponent beyond `\u00b11` and a non-zero mantissa the result is always wrong."
  },
  {
   "property": "C49",
   "status": "proved",
   "theorems": [
    "Verif.C49_fill",
    "Verif.C49_xnum"
   ],
   "note": "Proved in full on the model (assumptions of DESIGN.md). C49_fill: For every degree `L`, every seed, second seed and three-term step: the run never leaves the allocated table, never reads uninitialised memory, writes every entry of the table, and entry `(l, m, n)` is the value of the scalar recurrence. || C49_xnum: Instance: the X-number table."
  },
  {
   "property": "C50",
   "status": "proved",
   "theorems": [
    "Verif.C50_signed_log_sum_exp",
    "Verif.C50_real"
   ],
   "note": "Proved in full on the model (assumptions of DESIGN.md). C50_signed_log_sum_exp: `signedlogsumexp` returns the logarithm of the magnitude of the signed sum, and its sign. || C50_real: In particular for finite real arguments."
  },
  {
   "property": "C51",
   "status": "partial",
   "theorems": [
    "Verif.C51_mass_exact_partial",
    "Verif.C51_mass_partial",
    "Verif.C51_one_electron_partial",
    "Verif.C51_fails"
   ],
   "note": "C51_mass_exact_partial: C51, exact account: for every stream of random numbers and after every number of iterations the mass of the accumulator is the sum over the iterations of the number of *distinct* bins hit in the iteration. || C51_mass_partial: C51, what follows: the mass never exceeds the number of valid back-scattered electrons, and equals it exactly when no two electrons of the same iteration fall into the same bin (in particular with one electron at a time). Missing: equality in general (`C51_fails`). || C51_one_electron_partial: C51 with one electron: nothing is lost. || C51_fails: C51 is violated: two electrons leave in the same iteration, both with valid bins, but the histogram counts one (`accumulator[idx] += 1` writes each repeated index once)."
  },
  {
   "property": "C52",
   "status": "partial",
   "theorems": [
    "Verif.C52_unit",
    "Verif.C52_angle_partial",
    "Verif.C52_polar_bound",
    "Verif.C52_polar_fails",
    "Verif.C52_phi"
   ],
   "note": "C52_angle_partial: C52: away from the poles (`|z| \u2264 0.99999`) and exactly at the poles the new direction makes the sampled polar angle with the old one. Missing: the polar caps `0.99999 < |z| < 1` (`C52_polar_fails`, `C52_polar_bound`). || C52_polar_fails: C52 is violated inside the polar caps: the polar angle of the new direction is not the sampled one."
  },
  {
   "property": "C53",
   "status": "partial",
   "theorems": [
    "Verif.Cryst.C53_structure_matrix_partial",
    "Verif.Cryst.C53_impossible_angles_fails",
    "Verif.Cryst.C53_accepted",
    "Verif.Cryst.C53_units"
   ],
   "note": "C53_structure_matrix_partial: C53 (for cells whose metric determinant is not negative). In every cell that passes the volume check the three columns of the direct structure matrix have the edge lengths `a`, `b`, `c` and include the angles `\u03b3`, `\u03b2`, `\u03b1`, their triple product is `vol`, and `calc_dot` in direct space is the Cartesian dot product of the transformed vectors. || C53_impossible_angles_fails: What is missing in C53: angles that no cell can have (60\u00b0, 60\u00b0, 150\u00b0) pass the check, because the volume is then the square root of a negative number, NaN, and the comparison with 1e-6 is false."
  },
  {
   "property": "C54",
   "status": "partial",
   "theorems": [
    "Verif.Cryst.C54_roundtrip_partial",
    "Verif.Cryst.C54_direct_cartesian_iff",
    "Verif.Cryst.C54_hexagonal_fails",
    "Verif.Cryst.C54_dual_pairing",
    "Verif.Cryst.C54_reciprocal_dot",
    "Verif.Cryst.C54_frame_maps",
    "Verif.Cryst.C54_frame_partial",
    "Verif.Cryst.C54_frame_fails"
   ],
   "note": "C54_roundtrip_partial: C54 (part). Direct \u2194 reciprocal round trips are the identity for every cell, and in cells with right angles all round trips are. || C54_hexagonal_fails: What is missing in C54: in a hexagonal cell `direct \u2192 Cartesian \u2192 direct` changes vectors. || C54_frame_partial: C54 (partial): converting to the new frame and back gives the vector again exactly for orthogonal matrices. Missing: other changes of basis, see `C54_frame_fails`. || C54_frame_fails: C54 fails: for a change of basis that is not orthogonal (a doubled edge) the conversion back does not undo the conversion, in no space."
  },
  {
   "property": "C55",
   "status": "partial",
   "theorems": [
    "Verif.Cryst.C55_correct_iff_partial",
    "Verif.Cryst.C55_fails",
    "Verif.Cryst.C55_laue_shifted"
   ],
   "note": "C55_correct_iff_partial: C55 (part), exactly. `pg_num` is the International Tables point group for precisely the first space group of each point group and for the groups 221-230; `xtal_system` is right for precisely the first space group of each crystal system and for all cubic groups. (All 230 groups are covered.) || C55_fails: What is missing in C55: P2\u2081/c (14), the commonest space group, is given the point group `222` and the crystal system orthorhombic; and Fm-3m (225) the Laue group 12, which does not exist."
  },
  {
   "property": "C56",
   "status": "partial",
   "theorems": [
    "Verif.Cryst.C56_table_partial",
    "Verif.Cryst.C56_zero_kept_fails",
    "Verif.Cryst.C56_last_axial_missing_fails",
    "Verif.Cryst.C56_cubic_fails"
   ],
   "note": "C56_table_partial: C56 (part). If `get_reflections(dmin)` returns a table, every entry is allowed by the centring (when filtered), has a d-spacing above `dmin` (or is the zero vector) and lies strictly inside the limits; and conversely every such triple strictly inside the limits is in the table, except possibly the corner of the box. || C56_zero_kept_fails: The direct beam (0,0,0) is never removed: it is in every table whose box has more than one point, because the code drops the first row of the grid instead of the zero row. || C56_last_axial_missing_fails: Every axis misses its last admissible reflection: `(m, 0, 0)` with `m` the limit returned by `get_hkl_limits` has d-spacing at least `dmin`, and is not in the table. || C56_cubic_fails: The cubic cell with edge 1 nm, dmin = 0.4 nm (P m -3 m): a table is returned; it contains (0,0,0) but not (2,0,0), whose d-spacing is 0.5 nm."
  },
  {
   "property": "C57",
   "status": "proved",
   "theorems": [
    "Verif.Cryst.C57_allowed_iff_translations",
    "Verif.Cryst.C57_structure_factor"
   ],
   "note": "Proved in full on the model (assumptions of DESIGN.md). C57_allowed_iff_translations: C57. For every space group and all integers `h, k, l` (negative ones included) `is_g_allowed` does not raise, and answers `True` exactly when every lattice translation returned by `sg_operators` has an integral phase, i.e. when the reflection is not extinguished by the centring. || C57_structure_factor: C57, as a structure factor. `is_g_allowed` is `True` exactly when the centring structure factor does not vanish."
  },
  {
   "property": "C58",
   "status": "partial",
   "theorems": [
    "Verif.SG.C58_group_partial",
    "Verif.SG.C58_second_setting_fails",
    "Verif.SG.C58_corner_zero",
    "Verif.SG.C58_matrix_product_fails"
   ],
   "note": "C58_group_partial: C58 (first settings). For every space group 1-230 `sg_operators` returns, without error, a list of Seitz operators of the tabulated length that contains the identity, is closed under composition and inversion modulo lattice translations, and has no two entries that differ only by a lattice translation. || C58_second_setting_fails: What is missing in C58, first part: the second setting of *every* space group that has one is unusable: `sg_operators(sg, 2)` raises `KeyError`, because the slice of the generator string starts at the origin flag. || C58_matrix_product_fails: Hence the returned matrices, multiplied as 4\u00d74 matrices with the module's own `matmul_trans_mod`, are not closed: in P2\u2081 the square of the screw rotation is a translation by half a cell edge instead of a whole one."
  },
  {
   "property": "C59",
   "status": "proved",
   "theorems": [
    "Verif.Numerics.C59_quadratics",
    "Verif.Numerics.C59_cubics",
    "Verif.Numerics.C59_domain"
   ],
   "note": "Proved in full on the model (assumptions of DESIGN.md). C59_quadratics: C59. For every strictly increasing grid `x` with at least one point and not exactly two, and every quadratic `f(t) = a + b t + c t\u00b2`, `simpson_composite(f(x), x)` returns the integral of `f` from the first to the last grid point. || C59_cubics: On an equidistant grid with an even number of intervals cubics are integrated exactly as well. || C59_domain: The domain of C59 is sharp: two grid points raise, and tensors of different length raise."
  },
  {
   "property": "C60",
   "status": "partial",
   "theorems": [
    "Verif.Numerics.C60_linear_inside_partial",
    "Verif.Numerics.C60_linear_clamp",
    "Verif.Numerics.C60_linear_samples_partial",
    "Verif.Numerics.C60_linear_exact_partial",
    "Verif.Numerics.C60_error_mode_fails",
    "Verif.Numerics.C60_quadratic_exact",
    "Verif.Numerics.C60_quadratic_samples"
   ],
   "note": "C60_linear_inside_partial: C60, linear. On a strictly increasing grid, for a query in the segment between neighbouring sample points both the \"const\" and the linear mode of `_interp` return the value of the straight line through the two samples. || C60_linear_samples_partial: C60, samples and straight lines: both modes reproduce the samples (const mode: all of them; linear mode: likewise), and data on a straight line are reproduced at every query inside the range. || C60_linear_exact_partial: C60, straight lines: data on a straight line are reproduced at every query inside the range. || C60_error_mode_fails: What is missing in C60: the \"error\" mode of `_interp` forgets the shift by one: it uses the line of the *next* segment (here the second segment for a query in the first one), and raises for every query in the last segment."
  },
  {
   "property": "C61",
   "status": "proved",
   "theorems": [
    "Verif.Sht.C61_orthogonal",
    "Verif.Sht.C61_layers"
   ],
   "note": "Proved in full on the model (assumptions of DESIGN.md). C61_orthogonal: C61. For every `N \u2265 1` both matrices are orthogonal: transposition inverts them from both sides. || C61_layers: C61, for the layers: the weighted forward transform of the inverse transform is the quadrature-weighted Gram matrix, and the inverse transform is inverted by the unweighted forward transform: `x = idct\u1d40 (idct x)` on values."
  },
  {
   "property": "C62",
   "status": "proved",
   "theorems": [
    "Verif.Samp.C62_so3_fibonacci",
    "Verif.Samp.C62_so3_fibonacci_distinct",
    "Verif.Samp.C62_so3_uniform",
    "Verif.Samp.C62_ho2ax_axis",
    "Verif.Samp.C62_cu2qu_unit",
    "Verif.Samp.C62_cubochoric_points",
    "Verif.Samp.C62_cubochoric_grid",
    "Verif.Samp.C62_s2_fibonacci",
    "Verif.Samp.C62_eps"
   ],
   "note": "Proved in full on the model (assumptions of DESIGN.md). C62_so3_fibonacci: C62: `so3_fibonacci(n)` returns `n` unit quaternions, for every `n`. || C62_so3_fibonacci_distinct: C62: consecutive samples of `so3_fibonacci` are different rotations of the sequence: the first pair of components has squared norm `(i + \u00bd)/n`, which is strictly increasing in `i`, so all samples are distinct and none is the negative of another. || C62_so3_uniform: C62: `so3_uniform_quat` returns one unit quaternion per draw, for all draws in `[0, 1]`."
  },
  {
   "property": "C63",
   "status": "proved",
   "theorems": [
    "Verif.C63_transparent",
    "Verif.C63_lazy",
    "Verif.C63_bar"
   ],
   "note": "Proved in full on the model (assumptions of DESIGN.md). C63_transparent: C63: the progress bar yields exactly the items, in order, whatever the size of the bar; it fails only when the iterable has no length, before yielding anything. || C63_lazy: C63 at every point where the consumer may stop: after `t` events exactly the first `\u2308t/2\u2309` items have been handed over (no look-ahead into the iterable), and at most one progress line per item has been printed. || C63_bar: C63: every printed bar has exactly `size` cells, of which `\u230asize\u00b7j/count\u230b` are full."
  },
  {
   "property": "C64",
   "status": "partial",
   "theorems": [
    "Verif.Blur.C64_kernel",
    "Verif.Blur.C64_reflect_partial",
    "Verif.Blur.C64_zero_pad_partial",
    "Verif.Blur.C64_range",
    "Verif.Blur.C64_shape_fails"
   ],
   "note": "C64_reflect_partial: C64 (reflect padding): the blur succeeds exactly when the padding fits; the returned image has an even number of rows and of columns, equal to the input's when that is even and one less when it is odd (the last row or column is lost); each returned pixel is the average, with the kernel's weights, of the mirrored input around the *same* pixel. Missing from the English claim: shape preservation for odd sizes, which is false (`C64_shape_fails`). || C64_zero_pad_partial: C64 (zero padding, `reflect_padding=False`): the blur always succeeds, returns an image of the same shape as with reflect padding, and each pixel is the kernel-weighted sum of the input around the same pixel, zero outside the input. Missing: the shape for odd sizes, as in `C64_reflect_partial`. || C64_shape_fails: C64 violation: whenever the blur of an image with an odd number of rows succeeds, the last row is missing from the result; and such images exist (here 5 by 5 with `sigma = 2/3` as used by `BlurAndDownsample(2.0)`)."
  },
  {
   "property": "C65",
   "status": "partial",
   "theorems": [
    "Verif.Samp.C65_full_grid",
    "Verif.Samp.C65_axial_grids",
    "Verif.Samp.C65_reject",
    "Verif.Samp.C65_radius_zero_fails"
   ],
   "note": "C65_radius_zero_fails: C65 fails for radius 0: the only point is the corner `(-s, -s, -s)`, not the identity."
  },
  {
   "property": "C66",
   "status": "partial",
   "theorems": [
    "Verif.C66_slerp_partial",
    "Verif.C66_slerp_batch_fails"
   ],
   "note": "C66_slerp_partial: C66 (partial: one pair, i.e. inputs of shape `(4,)`): slerp of non-(anti)parallel non-zero quaternions stays on the unit sphere and interpolates its end points. || C66_slerp_batch_fails: C66 fails for batches: with `n \u2265 2` pairs the result does not have the shape `(n, 4)` of the inputs (the weight of pair `j` is applied to pair `i` for all `i, j`)."
  },
  {
   "property": "C67",
   "status": "partial",
   "theorems": [
    "Verif.Rfz.C67_inverse",
    "Verif.Rfz.C67_radial",
    "Verif.Rfz.C67_zone_partial",
    "Verif.Rfz.C67_zone_is_fz",
    "Verif.Rfz.C67_cube_to_rfz_fails"
   ],
   "note": "C67_zone_partial: C67 (what holds): it is rfz_to_cube that maps the cube onto the zone: its value is in the zone exactly when its argument is in the cube. Equivalently cube_to_rfz maps the zone exactly onto the cube. The English claim has the two functions the other way round; see `C67_cube_to_rfz_fails`. || C67_cube_to_rfz_fails: C67 violation: cube_to_rfz does not map the cube into the zone: the corner of the cube is sent outside even the cube (and the rotation is outside the library's own fundamental zone)."
  },
  {
   "property": "C68",
   "status": "proved",
   "theorems": [
    "Verif.C68_terminates",
    "Verif.C68_no_electrons"
   ],
   "note": "Proved in full on the model (assumptions of DESIGN.md). C68_terminates: C68: for every stream of random numbers, with at least one electron the loop stops: after `(n_max_steps + 1) \u00b7 (n_simulations_max + n)` iterations the loop condition is false. || C68_no_electrons: Without electrons the loop never ends (unless a limit is zero): the state never changes."
  },
  {
   "property": "C69",
   "status": "proved",
   "theorems": [
    "Verif.C69_invariants",
    "Verif.C69_exit_moves",
    "Verif.C69_counts",
    "Verif.C69_counters"
   ],
   "note": "Proved in full on the model (assumptions of DESIGN.md). C69_invariants: C69: for every stream of random numbers and every number of iterations, no bin index is ever out of range (the run never raises), and every electron has a unit direction, is inside the sample, and is at most `n_max_steps` old. || C69_exit_moves: C69: an electron that leaves the sample moves upwards (its `z` cosine is not zero), so its escape depth `|depth / z|` is well defined. || C69_counts: C69: the number of counted back-scattered electrons never exceeds the number of finished trajectories."
  },
  {
   "property": "C70",
   "status": "partial",
   "theorems": [
    "Verif.C70_lt_partial",
    "Verif.C70_eq",
    "Verif.C70_gt_partial",
    "Verif.C70_zero_fails",
    "Verif.C70_pi_fails",
    "Verif.C70_xnum_zero_fails",
    "Verif.C70_trig_power",
    "Verif.C70_xnum_partial",
    "Verif.C70_xnum_pi_fails"
   ],
   "note": "C70_lt_partial: `wigner_d_lt_half_pi(\u03b2, L)` for `0 < \u03b2 < \u03c0/2`. Missing: `\u03b2 = 0` (see `C70_zero_fails`). || C70_gt_partial: `wigner_d_gt_half_pi(\u03b2, L)` for `\u03c0/2 < \u03b2 < \u03c0`. Missing: `\u03b2 = \u03c0` in exact arithmetic, where the function takes the logarithm of zero (see `C70_pi_fails`). || C70_zero_fails: At `\u03b2 = 0`, inside the documented range `[0, \u03c0/2)`, no table is returned: `math.log(math.sin(0))`. || C70_pi_fails: At `\u03b2 = \u03c0`, inside the documented range `(\u03c0/2, \u03c0]`, no table is returned in exact arithmetic. || C70_xnum_zero_fails: `wigner_d_xnum` at `\u03b2 = 0`, inside its documented range: every entry on the diagonal `l = m` is NaN (for all degrees). || C70_xnum_partial: `wigner_d_xnum`, `0 < \u03b2 < \u03c0`: the X-number of entry `(m + d, m, n)` represents Wigner's small d as long as no step on the way drops a term. Missing: steps that drop a term, which `C48_sum_error` bounds by `2^-460` relative to the larger term, and the final conversion, for which see C48. || C70_xnum_pi_fails: C70 fails at `\u03b2 = \u03c0`, which the code has a branch for (meant for `\u03c0/2`): the entry `(m, m, n)` is Wigner's small d at `\u03c0/2`, never 0, and not the value at `\u03c0`, 0 for `m > 0`."
  },
  {
   "property": "C71",
   "status": "partial",
   "theorems": [
    "Verif.C71_read_half_pi",
    "Verif.C71_retrieve_partial",
    "Verif.C71_retrieve_fails"
   ],
   "note": "C71_retrieve_partial: `retrieve_wigner_d` on a table of values of any angle is right for non-negative orders. Missing: negative orders (documented as supported; see `C71_retrieve_fails`). || C71_retrieve_fails: For the orders `(1, -1, 0)` `retrieve_wigner_d` reads the entry of `(1, 0, 0)`: on the table for `\u03c0/2` it returns `0`, Wigner's value is not `0`."
  },
  {
   "property": "C72",
   "status": "proved",
   "theorems": [
    "Verif.C72_modular_inverse",
    "Verif.C72_curve_add",
    "Verif.C72_curve_mul",
    "Verif.C72_ecm_progress"
   ],
   "note": "Proved in full on the model (assumptions of DESIGN.md). C72_modular_inverse: C72: for a positive modulus, `modular_inverse(a, n)` returns the inverse in `[0, n)` if `a` is coprime to `n`, and otherwise raises `ValueError(a)` (so that `gcd(a, n)` is a non-trivial divisor or `n` itself). || C72_curve_add: C72: adding two points of the curve `y\u00b2 = x\u00b3 + A x + B` modulo `N` yields a point of the curve with reduced coordinates, or fails with a number that has a common factor with `N`. || C72_curve_mul: C72: multiplying a point by any `k` stays on the curve or fails with a number that has a common factor with `N`: a failing multiplication always reveals a divisor greater than 1."
  },
  {
   "property": "C73",
   "status": "proved",
   "theorems": [
    "Verif.C73_block_means",
    "Verif.C73_conserves_mean",
    "Verif.C73_range"
   ],
   "note": "Proved in full on the model (assumptions of DESIGN.md). C73_block_means: C73: binning by `b` (both `MasterPattern.bin` and `get_patterns`) replaces an `h \u00d7 w` image by the `\u230ah/b\u230b \u00d7 \u230aw/b\u230b` image of block means; `get_patterns` without binning returns the stored patterns; it raises exactly for an index out of range. || C73_conserves_mean: C73: when `b` divides both dimensions, binning conserves the mean intensity: the total of the binned image times `b\u00b2` is the total of the image. || C73_range: C73: every pixel of the binned image lies between bounds of the image."
  },
  {
   "property": "C74",
   "status": "proved",
   "theorems": [
    "Verif.C74_background"
   ],
   "note": "Proved in full on the model (assumptions of DESIGN.md). C74_background: C74: after `subtract_overall_background` the mean of every pixel over all patterns is zero, differences between patterns are unchanged, and a second call changes nothing."
  },
  {
   "property": "C75",
   "status": "partial",
   "theorems": [
    "Verif.C75_partition_partial",
    "Verif.C75_unindexed_dropped",
    "Verif.C75_single_rank_fails"
   ],
   "note": "C75_partition_partial: C75 (partial: only for non-negative phase ids, see `C75_unindexed_dropped`): the lists returned by `get_indices_per_phase` are increasing, list `i` holds exactly the positions of phase `i`, and every position is in exactly one list. || C75_single_rank_fails: C75: a phase that occurs exactly once is returned as a tensor without an index axis (its `len` raises)."
  },
  {
   "property": "C76",
   "status": "proved",
   "theorems": [
    "Verif.SG.C76_lattice_and_point_group"
   ],
   "note": "Proved in full on the model (assumptions of DESIGN.md). C76_lattice_and_point_group: C76. The pure translations among the operators of every space group are exactly the centring vectors of the lattice letter in its name, and its operators contain each kind of operation as often as the International Tables point group of that space group does (times the number of centring vectors)."
  },
  {
   "property": "C77",
   "status": "partial",
   "theorems": [
    "Verif.Cryst.C77_cross_partial",
    "Verif.Cryst.C77_mixed_raises_fails",
    "Verif.Cryst.C77_cartesian_ignores_space_fails",
    "Verif.Cryst.C77_direct_to_cartesian_fails"
   ],
   "note": "C77_cross_partial: C77 (part). With `scale_by_volume` the cross product of two direct vectors in direct space, and of two reciprocal vectors in reciprocal or Cartesian space, is the geometric cross product, in every cell; and Cartesian input gives the Cartesian cross product. || C77_mixed_raises_fails: What is missing in C77: mixed direct/reciprocal requests raise, although the geometric cross product of direct vectors *is* a reciprocal vector ... || C77_cartesian_ignores_space_fails: ... Cartesian input ignores the requested output space ... || C77_direct_to_cartesian_fails: ... and direct vectors with Cartesian output are wrong in non-orthogonal cells."
  },
  {
   "property": "C78",
   "status": "proved",
   "theorems": [
    "Verif.Cryst.C78_length_angle"
   ],
   "note": "Proved in full on the model (assumptions of DESIGN.md). C78_length_angle: C78. In every cell and every space, lengths and angles are those of the Cartesian vectors: `calc_length` is the Euclidean length and vanishes only for the zero vector; `calc_angle` raises exactly for a zero vector, and otherwise returns an angle in `[0, \u03c0]` with `cos \u03b8 \u00b7 |p| \u00b7 |q| = p \u00b7 q`; `norm_vec` of a non-zero vector has length one."
  },
  {
   "property": "C79",
   "status": "partial",
   "theorems": [
    "Verif.Cryst.C79_z2_percent",
    "Verif.Cryst.C79_average_number_partial",
    "Verif.Cryst.C79_average_number_fails",
    "Verif.Cryst.C79_average_number_scaled",
    "Verif.Cryst.C79_density"
   ],
   "note": "C79_average_number_partial: C79 (part). The average atomic number of a structure with one fully occupied atom is the atomic number ... || C79_average_number_fails: ... but with `n` atoms in the asymmetric unit it is `1/n` of the average, so already for two carbon atoms it is 3."
  },
  {
   "property": "C80",
   "status": "partial",
   "theorems": [
    "Verif.Cryst.C80_textbook_volume",
    "Verif.Cryst.C80_edges_partial",
    "Verif.Cryst.C80_fails"
   ],
   "note": "C80_edges_partial: C80 (part): `convert_from_R_to_H` computes the textbook edges for the angle `\u03b1\u00b7\u03c0/180`, i.e. it is right only if the cell angle had been left in degrees. || C80_fails: What fails: for every cell (angles are stored in radians) the new edge `a` is that of a wrong angle: for the 60\u00b0 cell the true hexagonal edge equals the rhombohedral one, the computed edge is smaller."
  },
  {
   "property": "C81",
   "status": "proved",
   "theorems": [
    "Verif.Cryst.C81_difference_table"
   ],
   "note": "Proved in full on the model (assumptions of DESIGN.md). C81_difference_table: C81. The difference table belongs to the reflection table: if both calls return, every difference of two distinct entries of the reflection table is in the difference table, and (0,0,0) is not."
  },
  {
   "property": "C82",
   "status": "partial",
   "theorems": [
    "Verif.C82_energy_decreases_partial",
    "Verif.C82_low_energy_fails"
   ],
   "note": "C82_energy_decreases_partial: C82 (part): an electron whose energy is at least `0.0089 / 1.166` of the mean ionisation potential does not gain energy in a step, in any material and for any draw in `(0, 1]`, and strictly loses energy if its energy is above this bound and the draw below one. Missing: electrons below the bound (`C82_low_energy_fails`). || C82_low_energy_fails: What is missing in C82: there is no energy cut-off in the loop, and below the bound a step *adds* energy."
  },
  {
   "property": "C83",
   "status": "proved",
   "theorems": [
    "Verif.Sht.C83_quadrature",
    "Verif.Sht.C83_total"
   ],
   "note": "Proved in full on the model (assumptions of DESIGN.md). C83_quadrature: C83. The Driscoll-Healy rule is exact: for every `B \u2265 1` and every real polynomial `P` of degree below `2 B`, `\u03a3_k W_k P(cos \u03b8_k)` over the `2 B` colatitudes is `\u222b_0^\u03c0 P(cos \u03b8) sin \u03b8 d\u03b8`. || C83_total: The weights sum to two, the integral of `sin`."
  },
  {
   "property": "C84",
   "status": "proved",
   "theorems": [
    "Verif.Cubo.C84_radius",
    "Verif.Cubo.C84_sectors",
    "Verif.Cubo.C84_ho2cu_cu2ho",
    "Verif.Cubo.C84_cu2ho_ho2cu",
    "Verif.Cubo.C84_cube_is_ball"
   ],
   "note": "Proved in full on the model (assumptions of DESIGN.md). C84_radius: C84: the homochoric norm is a fixed multiple of the largest cubochoric coordinate: concentric cubes are mapped into concentric spheres. || C84_sectors: C84: signs and order of the components are kept, so every octant and every pyramid of the cube is mapped to the corresponding part of the ball. || C84_ho2cu_cu2ho: C84: `ho2cu` undoes `cu2ho` for every cubochoric vector (also outside the cube), however ties are sorted in the two calls."
  },
  {
   "property": "C86",
   "status": "proved",
   "theorems": [
    "Verif.MI.C86_bounds",
    "Verif.MI.C86_symmetric",
    "Verif.MI.C86_self",
    "Verif.MI.C86_defined",
    "Verif.MI.C86_mi_nonneg",
    "Verif.MI.C86_batch"
   ],
   "note": "Proved in full on the model (assumptions of DESIGN.md). C86_bounds: C86: whenever binned_nmi returns a number it is non-negative, and with any of the normalisation modes it is at most one (for \"none\" at most the smaller of the two marginal entropies) \u2014 for all images, also with values outside [0, 1), all bin counts, in bits or nats, with or without the lowest bin. || C86_symmetric: C86: exchanging the two images (and their bin counts) does not change the value, for images in `[0, 1)` and every normalisation other than \"Logarithmic\" (which divides by the second entropy when the two are within 1e-6). || C86_self: C86: an image against itself (values in `[0, 1)`): the mutual information is the entropy of the image, and every normalised value is exactly one (when the entropy is not zero)."
  },
  {
   "property": "C85",
   "status": "partial",
   "theorems": [
    "Verif.Refine.C85_step",
    "Verif.Refine.C85_shrink",
    "Verif.Refine.C85_monotone_partial",
    "Verif.Refine.C85_each_alone",
    "Verif.Refine.C85_batch_independent",
    "Verif.Refine.C85_returns_partial",
    "Verif.Refine.C85_single_fails",
    "Verif.Refine.C85_squeeze_fails",
    "Verif.Refine.C85_never_loses_partial",
    "Verif.Refine.C85_floor_fails",
    "Verif.Refine.C85_outside_fails"
   ],
   "note": "C85_monotone_partial: C85 (refinement never loses score): starting from any orientation, with radius at least one, the recorded scores never decrease from one iteration to the next; the last recorded score is the score of the returned orientation, which lies in the fundamental zone and is a unit quaternion if the start was; and if the start lies in the fundamental zone no recorded score is below the score of the start. || C85_returns_partial: C85: the call returns when the patterns have been indexed, every phase number from 0 to the largest has a master pattern with a Laue group 1..11, and every batch holds at least two patterns (batch size at least 2, every phase with at least two patterns and not one more than a multiple of the batch size), with a radius of at least one step and more than one detector pixel. Without the condition on the batches it raises: `C85_single_fails`. || C85_single_fails: C85 fails (one pattern in a batch): with at least one iteration the call raises whenever the number of patterns of some phase is one more than a multiple of the batch size (in particular for a phase with a single pattern). || C85_squeeze_fails: C85 fails (one pixel or one candidate): with at least one iteration the call raises as soon as some pattern has a phase, if the detector has a single pixel, or if the local grid has a single point (`grid_half_width` 0 in three dimensions). || C85_never_loses_partial: C85 (refinement never loses score; partial: the call must return, i.e. no batch of one pattern, and the bound by the starting score needs a start inside the zone): in a call that returns, for every pattern with a phase, the recorded scores never decrease, the last one is the score of the stored orientation, which lies in the fundamental zone of the phase, and no recorded score is below the score of a starting orientation inside the zone. || C85_floor_fails: C85 fails for fine grids: with a semi-edge of at most 0.12 degrees (and a shrink factor of magnitude at most one) no master pattern, no experimental pattern and no number of iterations moves an orientation of the fundamental zone: every candidate is the current orientation itself (the small-norm cut of the homochoric conversion). || C85_outside_fails: C85 fails for starting orientations outside the zone: the reduction to the zone multiplies by a crystal rotation on the right, which changes the simulated pattern although the master pattern has the symmetry (here monoclinic, and the two-fold axis is z). The experimental pattern is the exact simulation of the start; every recorded score is lower than the score of the start."
  },
  {
   "property": "C87",
   "status": "partial",
   "theorems": [
    "Verif.Refine.C87_score_range",
    "Verif.Refine.C87_score_self",
    "Verif.Refine.C87_outcome",
    "Verif.Refine.C87_stored_valid_partial",
    "Verif.Refine.C87_improves_fails",
    "Verif.Refine.C87_returns_partial",
    "Verif.Refine.C87_single_fails",
    "Verif.Refine.C87_dropped_fails"
   ],
   "note": "C87_stored_valid_partial: C87 (partial): every orientation the call writes is a unit quaternion inside the fundamental zone, provided the optimiser trajectory consists of unit quaternions. || C87_improves_fails: C87 fails (never improves): whatever the optimiser does, a pattern whose start has a non-negative score (as every indexed pattern should) is only ever overwritten when the score reached is *lower* than that of the start; in particular a trajectory whose scores stay non-negative never changes anything, however much it improves the score. || C87_returns_partial: C87: the call returns for one phase when every batch holds at least two patterns. || C87_single_fails: C87 fails: without iterations, and for a phase with a single pattern or one more than a multiple of the batch size, a batch raises. || C87_dropped_fails: C87 fails (a lost improvement): two patterns that are exact simulations of the orientation `gq`, started at the identity where their score is 1/2; the optimiser reaches `gq`, score 1, and the call leaves the identity in place."
  },
  {
   "property": "C88",
   "status": "partial",
   "theorems": [
    "Verif.S2.C88_to_fz_partial",
    "Verif.S2.C88_pole_fails",
    "Verif.S2.C88_equator_fails",
    "Verif.S2.C88_misassign_fails",
    "Verif.S2.C88_equiv_fails",
    "Verif.S2.C88_samples",
    "Verif.S2.C88_cover_partial",
    "Verif.S2.C88_cover_cubic",
    "Verif.S2.C88_cubic_edge_fails",
    "Verif.S2.C88_trigonal_pole_fails",
    "Verif.S2.C88_inside_accepted",
    "Verif.S2.C88_unique"
   ],
   "note": "C88_to_fz_partial: C88: `s2_to_fz_laue` on a batch in which every direction has an equivalent more than `2 EPS` inside the sector returns, row by row, that (unique, by `C88_unique`) equivalent. || C88_pole_fails: C88 fails on the pole: for every class but the triclinic one, `s2_to_fz_laue` raises on the single direction [001] (the pole has several accepted images, or none for classes 7 and 11). || C88_equator_fails: C88 fails in the triclinic class on the equator: both `p` and `-p` are accepted and the call raises. || C88_misassign_fails: C88 fails silently: in class 11 a direction without accepted image next to one with two accepted images makes the total count come out right, and the row of [001] is filled with [112]/\u221a6. || C88_equiv_fails: C88 fails for `s2_equiv_laue`: it always raises on a non-empty batch, because the images and their antipodes are twice as many rows as the requested shape holds. || C88_cover_partial: C88: for Laue classes 1-10 every direction has a symmetric equivalent that `s2_in_fz_laue` accepts (class 7: every direction except the poles). || C88_cubic_edge_fails: C88 fails for class 11 on a whole great-circle arc, e.g. [001] and [101]: no equivalent is accepted. || C88_trigonal_pole_fails: C88 fails for class 7 at the poles: `atan2(0, 0) = 0` lies outside `[-\u03c0/2, -\u03c0/6]`."
  },
  {
   "property": "C89",
   "status": "partial",
   "theorems": [
    "Verif.KV.C89_hexagon_inside",
    "Verif.KV.C89_hexagon_fails",
    "Verif.KV.C89_agree",
    "Verif.KV.C89_unit",
    "Verif.KV.C89_equivariant",
    "Verif.KV.C89_forward",
    "Verif.KV.C89_bijective",
    "Verif.KV.C89_equal_area"
   ],
   "note": "C89_hexagon_fails: C89 fails for the hexagon map: an image is a unit vector only for the centre and for the edge of the hexagon; the image of every other point is off the unit sphere."
  },
  {
   "property": "C90",
   "status": "partial",
   "theorems": [
    "Verif.Pca.C90_kras_invariant",
    "Verif.Pca.C90_kras_roundtrip",
    "Verif.Pca.C90_kras_best",
    "Verif.Pca.C90_kras_fixed",
    "Verif.Pca.C90_kras_components",
    "Verif.Pca.C90_kras_implicit_fails",
    "Verif.Pca.C90_oja_orthonormal",
    "Verif.Pca.C90_oja_roundtrip",
    "Verif.Pca.C90_oja_power",
    "Verif.Pca.C90_oja_plus_fails",
    "Verif.Pca.C90_oja_single_fails",
    "Verif.Pca.C90_oja_schedule"
   ],
   "note": "C90_kras_implicit_fails: C90 fails: the step size is not that of the implicit update named in the module's documentation. With one row whose latent coordinates have length 2, the new matrix does not solve `C' = C + \u03b7 (x - C' y) y\u1d40`. || C90_oja_plus_fails: C90 fails with `use_oja_plus`: whenever the update draws a column that is not a unit vector, the components are not orthonormal and a projected reconstruction differs from the latent coordinates. || C90_oja_single_fails: C90 fails with `use_oja_plus` and one component: the first update divides by zero, so no update is possible."
  },
  {
   "property": "C91",
   "status": "partial",
   "theorems": [
    "Verif.KV.C91_right_number_partial",
    "Verif.KV.C91_cover_partial",
    "Verif.KV.C91_rows",
    "Verif.KV.C91_raises_fails",
    "Verif.KV.C91_missing_fails",
    "Verif.KV.C91_trigonal_fails"
   ],
   "note": "C91_right_number_partial: C91 with the right point group number: for every space group outside the trigonal and hexagonal systems the sampled directions meet the orbit of every direction of the full two-hemisphere grid. (The number stored by `Cell` is usually not the right one: C55.) || C91_cover_partial: C91 for cells as the code builds them: for these space groups the k-vector grid of every half width meets the orbit of every direction of the full two-hemisphere grid. || C91_raises_fails: the stored number selects no sampling type at all: `ValueError` for all space groups 124-142 (4/mmm). || C91_missing_fails: C91 fails: for these space groups (among them zinc blende, 216) and every half width above one, some direction of the full grid is equivalent to no sampled direction. || C91_trigonal_fails: C91 fails for the trigonal space groups 143-155: for every half width from four on, a direction inside the hexagon is equivalent to no sampled direction (the masks keep a quadrant of azimuths, 90\u00b0 out of the 120\u00b0 needed)."
  },
  {
   "property": "C92",
   "status": "proved",
   "theorems": [
    "Verif.Diff.C92_codata",
    "Verif.Diff.C92_refraction",
    "Verif.Diff.C92_ewald",
    "Verif.Diff.C92_sign",
    "Verif.Diff.C92_agree",
    "Verif.Diff.C92_symmetric",
    "Verif.Diff.C92_wavelength",
    "Verif.Diff.C92_wave_vector"
   ],
   "note": "Proved in full on the model (assumptions of DESIGN.md). C92_codata: C92. For every positive accelerating voltage (kV) the wavelength (nm), the relativistic factor and the potential (V) returned by `calc_lambda` agree with the CODATA values: the wavelength to `1.5e-7`, the other two to `3e-8`, relatively. || C92_refraction: C92. Inside the crystal the wavelength used for the master pattern is shortened by refraction at the mean inner potential `V\u2080 = pref\u00b7|F(000)|` (V): it is the de Broglie wavelength for the potential `\u03c8 + V\u2080`, to `1.5e-7`, and satisfies `\u03bb'\u00b2 (\u03c8 + V\u2080) = \u03bb\u00b2 \u03c8` exactly, with the wavelength and potential of `calc_lambda`. || C92_ewald: C92. The excitation error computed by `calc_sg_batched` is the distance to the Ewald sphere along the beam, to first order, with the exact remainder: moving the reciprocal lattice point `k + g` by `s` along the unit vector of `k` gives a vector whose squared length is `|k|\u00b2 + s\u00b2`."
  },
  {
   "property": "C93",
   "status": "partial",
   "theorems": [
    "Verif.Diff.C93_units",
    "Verif.Diff.C93_lookup",
    "Verif.Diff.C93_no_collision",
    "Verif.Diff.C93_structure_factor",
    "Verif.Diff.C93_friedel",
    "Verif.Diff.C93_hermitian",
    "Verif.Diff.C93_duplicate_fails"
   ],
   "note": "C93_duplicate_fails: The direct beam is in the list twice (once prepended, once left in the table by `get_reflections`), and the code couples it to its own copy with the mean potential `U(000)`, unless the table is a single point."
  },
  {
   "property": "C94",
   "status": "partial",
   "theorems": [
    "Verif.Diff.C94_nonneg",
    "Verif.Diff.C94_voltages_fails",
    "Verif.Diff.C94_absorption_fails",
    "Verif.Diff.C94_cutoff",
    "Verif.Diff.C94_depth_fails",
    "Verif.Diff.C94_shallow_fails",
    "Verif.Diff.C94_physical",
    "Verif.Diff.C94_value",
    "Verif.Diff.C94_chunk_independent",
    "Verif.Diff.C94_weights_scale",
    "Verif.Diff.C94_wave",
    "Verif.Diff.C94_flux"
   ],
   "note": "C94_voltages_fails: Two or more voltages make the call fail (unless their number happens to equal the number of beams), because the absorption of all voltages is broadcast against the beams. || C94_absorption_fails: `absorption=False` always fails. || C94_depth_fails: The depth loop leaves out the cut-off depth itself: for every row of weights with positive sum it covers less than 95 % of the weight (never at least 95 %). || C94_shallow_fails: If the first depth already holds 95 % of the weight, no depth at all is used and the pattern is identically zero."
  },
  {
   "property": "C95",
   "status": "partial",
   "theorems": [
    "Verif.Fit.C95_search",
    "Verif.Fit.C95_batch_pc",
    "Verif.Fit.C95_orientation_partial",
    "Verif.Fit.C95_first_batch_only",
    "Verif.Fit.C95_odd_width_fails",
    "Verif.Fit.C95_brightness",
    "Verif.Fit.C95_unchanged",
    "Verif.Fit.C95_repeat",
    "Verif.Fit.C95_batch_fails",
    "Verif.Fit.C95_mirror_fails",
    "Verif.Fit.C95_attribution",
    "Verif.Fit.C95_offset_partial",
    "Verif.Fit.C95_offset_fails",
    "Verif.Fit.C95_covers",
    "Verif.Fit.C95_range_partial",
    "Verif.Fit.C95_range_fails",
    "Verif.Fit.C95_preprocess"
   ],
   "note": "C95_orientation_partial: C95 (partial): when the whole dictionary fits in one batch, the orientation returned for each pattern attains the best overlap at the returned pattern centre (whenever that overlap is positive). Missing: dictionaries longer than a batch, where it is false (`C95_batch_fails`). || C95_odd_width_fails: C95 fails: whenever the padded width is odd the search raises (the inverse transform is one column too narrow). || C95_batch_fails: C95 fails: with two orientations in two batches of one, the search returns the first orientation although the simulation of the second one, and not of the first, matches the pattern at the returned pattern centre. || C95_mirror_fails: C95 fails: the pattern is exactly the one recorded with the pattern centre `(1/2, 1, 1/2)`, inside the search range, for the only orientation of the dictionary; the search returns `(1/2, 0, 1/2)`, its mirror image. || C95_offset_partial: C95 (partial): the entry without displacement is reported as pattern centre 1/2 when the search range is symmetric and the detector size even. Missing: see `C95_offset_fails`. || C95_offset_fails: C95 fails: for an odd number of pixels, or a range that is not symmetric, the undisplaced entry is reported as another pattern centre than the (1/2) it was simulated with. || C95_range_partial: C95 (range of the result; partial). The returned pattern centre lies within half a detector (and half a binned pixel) of the requested range. Missing: it need not lie in the requested range, since the scores of all cyclic displacements compete. || C95_range_fails: C95 fails: the search is asked for the pattern centre (1/2, 1/2) only, and returns (0, 0)."
  },
  {
   "property": "C96",
   "status": "partial",
   "theorems": [
    "Verif.Cmif.C96_value",
    "Verif.Cmif.C96_centre",
    "Verif.Cmif.C96_registration",
    "Verif.Cmif.C96_agrees",
    "Verif.Cmif.C96_chunked_partial",
    "Verif.Cmif.C96_constant_partial",
    "Verif.Cmif.C96_constant_fails",
    "Verif.Cmif.C96_odd_width_fails",
    "Verif.Cmif.C96_batch_shape_fails",
    "Verif.Cmif.C96_chunk_boundary_fails",
    "Verif.Cmif.C96_batch_fails",
    "Verif.Cmif.C96_value_one_fails",
    "Verif.Cmif.C96_mask_fails"
   ],
   "note": "C96_chunked_partial: C96, more than 8 bins. With one destination image and bin counts that do not exceed a multiple of the chunk size by exactly one, the maps are the same as for few bins. Missing for the full property: see the `_fails` theorems below. || C96_constant_partial: C96, constant marginals (at most 8 bins): the same maps, for images without grey values just above the lower end of a bin (the marginals are binned after a multiplication by 0.99999, the joint histogram is not). || C96_constant_fails: Constant marginals with more than 8 bins always raise. || C96_odd_width_fails: Images of odd width: with few bins the maps lack a column, with more bins the call raises. || C96_batch_shape_fails: More than 8 bins, several destination images and one source image: the result has as many columns as rows, instead of one column. || C96_chunk_boundary_fails: Failure: bin counts one above a multiple of the chunk size. With 9 bins (chunks of 8) the last grey level never enters the joint histogram: an image of two grey levels (entropy `log 2`) against itself scores `2 log 2`. || C96_batch_fails: Failure: batches with more than 8 bins. The entry for destination 0 and source 1 takes its marginal entropies from destination 1: here destination 0 and the sources are uniform (mutual information 0) and the entry is `log 2`. || C96_value_one_fails: Failure: grey value 1. A pixel of value exactly 1 (the maximum of every min-max normalised image) is in no level: the image `[0, 1]` against itself scores 0, as a uniform image would. || C96_mask_fails: Failure: masks. A mask restricts the marginal histogram of the other image but not the joint histogram: on the masked-in top row the source is uniform, so the mutual information there is 0 whatever the destination; the map shows `log 2 / 2` at zero displacement."
  },
  {
   "property": "C97",
   "status": "partial",
   "theorems": [
    "Verif.Hr.C97_direction",
    "Verif.Hr.C97_shape",
    "Verif.Hr.C97_dilatation",
    "Verif.Hr.C97_rotation",
    "Verif.Hr.C97_compose",
    "Verif.Hr.C97_mask",
    "Verif.Hr.C97_pose_partial",
    "Verif.Hr.C97_frozen_fails"
   ],
   "note": "C97_pose_partial: C97, pose. Feeding the logarithm of a detector pose `(R, t)` (rotation angle between 0.05 and \u03c0) with an all-ones mask reads the master pattern along `F\u207b\u00b9 R(q) (R p + t)`, the sample-frame coordinates of pixel `p` under that pose. || C97_frozen_fails: C97 fails at the corner pixel. With all six parameters frozen (mask 0, whatever the vector) and no binning, the pixel `(0, 0)` sits at the source point and its direction is undefined (NaN), for every orientation and deformation; all other pixels look along the detector plane."
  },
  {
   "property": "C98",
   "status": "partial",
   "theorems": [
    "Verif.Atoms.C98_positions",
    "Verif.Atoms.C98_orbit_partial",
    "Verif.Atoms.C98_special",
    "Verif.Atoms.C98_translate_fails",
    "Verif.Atoms.C98_origin_fails",
    "Verif.Atoms.C98_far_fails"
   ],
   "note": "C98_orbit_partial: C98 (exact part). For every space group and every position whose images have no coordinate within `1e-6` of an integer (unless it is one) and are either equal modulo the lattice or at least `1e-4` apart: the list contains exactly the representatives in the unit cell of the images, each once, and multiplicity times the number of operations that leave the position fixed (site symmetry) is the order of the group. || C98_translate_fails: What is missing in C98, first part: near the cell boundary duplicates are not recognised, because distances are not taken modulo the lattice and values just below one are not snapped. In P-1 an atom at `x = 0.9999999` gets multiplicity two; the same atom one cell further left, at `x = -0.0000001`, gets multiplicity one. || C98_origin_fails: What is missing in C98, second part: the tolerance is not the same everywhere in the cell. In P-1 two images `2e-5` apart are one atom around the centre (1/2, 0, 0) but two atoms around the equivalent centre (0, 0, 0). || C98_far_fails: What is missing in C98, third part: a coordinate below \u2212100 is reduced to a negative number, outside the unit cell."
  },
  {
   "property": "C99",
   "status": "partial",
   "theorems": [
    "Verif.Atoms.C99_average_partial",
    "Verif.Atoms.C99_average_fails",
    "Verif.Atoms.C99_density"
   ],
   "note": "C99_average_partial: C99 (averages). `average_atomic_number` and `average_atomic_weight` of a fully occupied cell, multiplied by the number of sites of the asymmetric unit, are the mean over the atoms of the unit cell; so they are that mean exactly for cells with one site. || C99_average_fails: What is missing in C99: with `n \u2265 2` sites the averages are too small by the factor `n` (the code divides the mean over the sites, not the sum, by the number of atoms). These values are passed to the Monte Carlo simulation."
  },
  {
   "property": "C100",
   "status": "partial",
   "theorems": [
    "Verif.Atoms.C100_metric_partial",
    "Verif.Atoms.C100_nan_fails",
    "Verif.Atoms.C100_system_fails",
    "Verif.Atoms.C100_threefold_intended",
    "Verif.Atoms.C100_threefold_fails"
   ],
   "note": "C100_metric_partial: C100 (what holds). Whenever the second structure matrix of a trigonal cell consists of numbers, it describes the same lattice geometry as the first (`dsm2\u1d40 dsm2 = dsm\u1d40 dsm`) and the same handedness; outside the trigonal system it is not computed. || C100_nan_fails: What is missing in C100: the angle is stored in radians but used as if it were in units of 180\u00b0, so for a rhombohedral cell with \u03b1 = 60\u00b0 the matrix consists of NaN. || C100_system_fails: What is missing in C100, second part: because the crystal system is misread (C55), the matrix is missing for the trigonal space groups 144-167 (all rhombohedral ones among them) and computed for the tetragonal ones 76-142. || C100_threefold_fails: C100 fails: for a rhombohedral cell with an angle below one radian the second structure matrix, when it is a matrix of numbers, does not put the three-fold axis along `z`."
  },
  {
   "property": "C101",
   "status": "proved",
   "theorems": [
    "Verif.Sht.C101_csht_synthesis",
    "Verif.Sht.C101_rsht_synthesis"
   ],
   "note": "Proved in full on the model (assumptions of DESIGN.md). C101_csht_synthesis: C101 (complex). For every band limit the module is built, and `isht` of every coefficient tensor is, at every grid point, the band-limited function with these coefficients up to the cut-off of small weights. || C101_rsht_synthesis: C101 (real). For every band limit the module is built, and `isht` of every coefficient tensor is, at every grid point, the real band-limited function with these coefficients for `m \u2265 0`, up to the cut-off of small weights."
  },
  {
   "property": "C102",
   "status": "proved",
   "theorems": [
    "Verif.Sht.C102_csht_analysis",
    "Verif.Sht.C102_csht_roundtrip",
    "Verif.Sht.C102_grid"
   ],
   "note": "Proved in full on the model (assumptions of DESIGN.md). C102_csht_analysis: C102 (analysis, complex). `fsht` of the samples of a band-limited function returns its spherical harmonic coefficients (order `m` in row `m + L - 1`), up to the cut-off of small weights, and exact zeros where `|m| > l`. || C102_csht_roundtrip: C102 (round trip, complex). `fsht (isht c)` is `c` on every stored coefficient with `|m| \u2264 l`, up to the cut-off of small weights, and zero on the unused entries. || C102_grid: C102 (sampling points). The `2B \u00d7 2B` points of the grid, as directions: point `(j, k)` has colatitude `\u03c0 (2k+1)/(4B)` and azimuth `\u03c0 j / B`; they lie on the unit sphere, are pairwise different, avoid the poles, and with every point the grid has the opposite one."
  },
  {
   "property": "C103",
   "status": "proved",
   "theorems": [
    "Verif.Sht.C103_rsht_analysis",
    "Verif.Sht.C103_rsht_roundtrip",
    "Verif.Sht.C103_imaginary_lost"
   ],
   "note": "Proved in full on the model (assumptions of DESIGN.md). C103_rsht_analysis: C103 (analysis, real). `fsht` of the samples of a real band-limited function returns its coefficients of order `m \u2265 0` (row `m`), up to the cut-off of small weights, and exact zeros where `m > l`. || C103_rsht_roundtrip: C103 (round trip, real). `fsht (isht c)` is `c` with the imaginary parts of order zero removed: exactly what a real signal can carry. || C103_imaginary_lost: The imaginary part of a coefficient of order zero does not survive: `fsht (isht c)` differs from `c` (band limit 1, `c = i`)."
  },
  {
   "property": "C104",
   "status": "proved",
   "theorems": [
    "Verif.Sht.Cc.C104_complex_correlation",
    "Verif.Sht.Cc.C104_real_correlation",
    "Verif.Sht.Cc.C104_refuses"
   ],
   "note": "Proved in full on the model (assumptions of DESIGN.md). C104_complex_correlation: C104 (complex). With a table that covers the band limit, `cs2cc_` returns for every pair of batch elements and every voxel the magnitude of the inner product (the integral over the sphere) of the first function with the second one turned by the rotation of the voxel. || C104_real_correlation: C104 (real). With a table that covers the band limit, `rs2cc_` returns, for every pair of batch elements and every voxel, the inner product (the integral over the sphere) of the first real function with the second one turned by the rotation of the voxel; the second function must have real coefficients of order zero, as every real function has. || C104_refuses: C104 (errors). Batches whose sizes cannot be broadcast are refused by all three functions."
  },
  {
   "property": "C105",
   "status": "partial",
   "theorems": [
    "Verif.Sht.Cc.C105_fast_partial",
    "Verif.Sht.Cc.C105_fast_fails"
   ],
   "note": "C105_fast_partial: C105, partial. `rs2cc_fast_` returns the volume of `rs2cc_` when the second function has no coefficients of order above zero (it is symmetric about the z axis). Missing: all other functions, see `C105_fast_fails`. || C105_fast_fails: C105, counterexample. The fast version drops all negative orders of the second function: for the real function with `c_11 = 1` (band limit 2) correlated with itself, `rs2cc_` returns `-2` at voxel `(0, 0, 0)` and `rs2cc_fast_` returns `0`."
  },
  {
   "property": "C106",
   "status": "partial",
   "theorems": [
    "Verif.HoAcc.C106_ho2ax_fast",
    "Verif.HoAcc.C106_ho2ax_newton_step",
    "Verif.HoAcc.C106_ho2ax_reference",
    "Verif.HoAcc.C106_quaternion",
    "Verif.HoAcc.C106_cubochoric",
    "Verif.HoAcc.C106_newton_axis_partial",
    "Verif.HoAcc.C106_newton_angle_partial",
    "Verif.HoAcc.C106_newton_fails"
   ],
   "note": "C106_newton_axis_partial: C106, `ho2ax_newton`, what holds: the axis points the right way; its squared length is the homochoric radius. || C106_newton_angle_partial: C106, `ho2ax_newton`, what holds of the angle: after the two updates of single precision it is right to `8e-7`, after the three of double precision to `2e-13`, for every angle down to 0 (no cut-off). || C106_newton_fails: C106 fails for `ho2ax_newton`: a half turn about `z` comes back with an axis that is not a unit vector."
  },
  {
   "property": "C107",
   "status": "partial",
   "theorems": [
    "Verif.Color.C107_bytes",
    "Verif.Color.C107_hsl_partial",
    "Verif.Color.C107_hsl_fails",
    "Verif.Color.C107_direction_partial",
    "Verif.Color.C107_left_partial",
    "Verif.Color.C107_symmetry_fails",
    "Verif.Color.C107_overflow_fails",
    "Verif.Color.C107_trigonal_fails",
    "Verif.Color.C107_colour_partial"
   ],
   "note": "C107_hsl_partial: C107: in the upper half of the lightness range the stored channels are those of the HSL colour with hue `(2 \u03b8 + 1/2) / 2\u03c0`, saturation 1 and lightness `\u03c6`. || C107_hsl_fails: C107 fails below lightness \u00bd: red (hue 0) at lightness \u00bc is stored with green and blue at \u00bc instead of 0, because the chroma is used where the HSV saturation belongs. || C107_direction_partial: C107, what holds: orientations that turn the reference direction into directions equivalent under the Laue class get the same colours, row by row. Assumed: every such direction has an equivalent more than `2 EPS` inside the sector. || C107_left_partial: C107, what holds: multiplying orientations from the left by rotations of the class does not change the colours. || C107_symmetry_fails: C107 fails for the symmetry of the rest of the package (`ori_to_fz_laue` multiplies by the class from the right): in class 5 (`4/mmm`) two orientations that differ by the four-fold rotation get different colours; the reference direction is turned by the orientation instead of its inverse. || C107_overflow_fails: C107 fails where the azimuth is larger than 1 rad or negative: some channel lies outside the range of a byte. || C107_trigonal_fails: C107 fails for every orientation of class 7 (`-3m`) in general position: its colour is undefined. || C107_colour_partial: C107, what holds: where the azimuth of the reduced direction lies between 1/2 and 1 rad, the colour of the orientation is the HSL colour with hue `(2 theta + 1/2) / (2 pi)` modulo 1, full saturation and lightness `phi`, with `theta` and `phi` the polar angle and azimuth of the reduced direction, each channel times 255 rounded down."
  },
  {
   "property": "C108",
   "status": "partial",
   "theorems": [
    "Verif.SampleAngle.C108_members_partial",
    "Verif.SampleAngle.C108_angle",
    "Verif.SampleAngle.C108_resolution_fails"
   ],
   "note": "C108_members_partial: C108, what holds: for every class and every resolution above 0.03732 degrees the result is, up to the drawn permutation, the list of those points of a cubochoric grid that lie in the fundamental zone: unit quaternions, all of them in the zone, none lost. || C108_resolution_fails: C108 fails for the resolution: the grid is made coarser by the order of the group although it covers all of SO(3). In the cubic class, asked for 40 degrees, every sample and every one of its symmetric equivalents is more than 44 degrees away from the identity orientation."
  },
  {
   "property": "C109",
   "status": "proved",
   "theorems": [
    "Verif.Scat.C109_wk_real"
   ],
   "note": "Proved in full on the model (assumptions of DESIGN.md). C109_wk_real: C109, `scatter_factor_WK`: for every list of elements 1-98 with as many displacements, all scattering magnitudes and all positive voltages the call succeeds, and the real part of every entry is positive and within 0.19 % (helium: 0.55 %) of the tabulated form times the Debye-Waller factor times the relativistic mass ratio; with the \"ITC\" convention, of the tabulated form alone at `s = g / 2`."
  },
  {
   "property": "C110",
   "status": "partial",
   "theorems": [
    "Verif.Scat.C110_forward_absorption_partial",
    "Verif.Scat.C110_no_motion_fails"
   ],
   "note": "C110_forward_absorption_partial: C110, what holds: for every element 1-98, every nonzero displacement and every positive voltage, both absorptive parameterisations give a positive absorption at zero scattering as soon as one of the two loss channels is included. || C110_no_motion_fails: C110 fails: an atom without thermal motion (which scatters nothing diffusely) gets NaN as the phonon part, for every element, scattering magnitude and voltage."
  },
  {
   "property": "C111",
   "status": "partial",
   "theorems": [
    "Verif.Scat.C111_continuous_fails",
    "Verif.Scat.C111_continuous_partial"
   ],
   "note": "C111_continuous_fails: C111 fails for the code as it is: the constant of the rational approximation of the exponential integral near zero differs from the Euler constant used next to it by 2e-18, and the difference is divided by `G\u00b2`: for every element 1-98 and every nonzero displacement the computed thermal diffuse term grows beyond all bounds as the scattering magnitude tends to zero, in place of approaching its value at zero. || C111_continuous_partial: C111, what holds: with the exact exponential integral in the place of its rational approximation, the thermal diffuse absorption of every element 1-98 and every nonzero displacement is continuous at zero scattering: the separate formula used for `g = 0` is the limit of the formula used for `g \u2260 0`."
  },
  {
   "property": "C112",
   "status": "partial",
   "theorems": [
    "Verif.Scat.C112_elements_partial",
    "Verif.Scat.C112_elements_fails"
   ],
   "note": "C112_elements_partial: C112, what holds: an atomic number above 98 (for the Lobato-Van Dyck factors 102), or below -97 (-101), makes the call raise, for every convention, table, choice of channels and batch. || C112_elements_fails: C112 fails: the atomic number 0 (and every `-k` with `k < 97`) is accepted; the Weickenmeier-Kohl factor of element 0 is the one of element 98 (californium) at every scattering magnitude, displacement and voltage, and the real part of the hybrid factor is the one of element 102."
  },
  {
   "property": "C113",
   "status": "partial",
   "theorems": [
    "Verif.Scat.C113_batch_partial",
    "Verif.Scat.C113_batch_fails"
   ],
   "note": "C113_batch_partial: C113, what holds: whenever a batched call of `scatter_factor_WK` or `scatter_factor_hybrid` succeeds, with one displacement per element, its entry for voltage `v`, element `z` and scattering magnitude `k` is the result of the call with these three values alone; the same for `scatter_factor_LVD` with one voltage, and for its real part with any number of voltages. || C113_batch_fails: C113 fails for `scatter_factor_LVD` with several voltages. With as many voltages as scattering magnitudes the absorption at voltage `v` is divided by the wave number of another voltage: for 20 and 30 kV at two equal magnitudes the entry for 20 kV is not the one computed for 20 kV alone. With any other number of voltages above one the call raises."
  },
  {
   "property": "C114",
   "status": "partial",
   "theorems": [
    "Verif.Scat.C114_units_partial",
    "Verif.Scat.C114_units_fails"
   ],
   "note": "C114_units_partial: C114, what holds: in `scatter_factor_WK` the thermal damping of the real part is the Debye-Waller factor at wave vector transfer `g`; in `scatter_factor_hybrid` and (with one voltage) `scatter_factor_LVD` it is the Debye-Waller factor at `2 pi g`. So at `g` for the first and `g / (2 pi)` for the others the same displacement damps by the same factor. || C114_units_fails: C114 fails: given the same scattering magnitude, as the reflection lists of the library do, the two parameterisations damp by different factors: by `e^{-1/2}` and `e^{-2 pi^2}` at `g = 1` and displacement 1."
  },
  {
   "property": "C115",
   "status": "partial",
   "theorems": [
    "Verif.Scat.C115_nodes_partial",
    "Verif.Scat.C115_large_partial",
    "Verif.Scat.C115_table_fails"
   ],
   "note": "C115_nodes_partial: C115, the table itself: each of its entries is `x e^{-x} Ei(x)` at `x = 200 / i`, to a millionth (the abscissa is `i / 200`, not the `i / 2000` used when interpolating, see `C115_table_fails`). || C115_large_partial: C115, what holds: above 200 the interpolated table agrees with `x e^{-x} Ei(x)` to 3e-4. || C115_table_fails: C115 fails: everywhere between 20 and 200, which is where the table is first used, the value returned is too large by more than 0.0035 (the abscissa of the table entries is taken as `idx / 2000` in place of `idx / 200`)."
  },
  {
   "property": "C116",
   "status": "partial",
   "theorems": [
    "Verif.Scat.C116_expi_partial",
    "Verif.Scat.C116_expi_fails",
    "Verif.Scat.C116_large_partial"
   ],
   "note": "C116_expi_partial: C116, what holds: up to 20 the value returned is the exponential integral, to `1e-15 e^x` below -1, to `6e-15` on [-1, 6] and to 15 parts in `10^15` on (6, 20]. || C116_expi_fails: C116 fails above 20 (the branch of Boost for (20, 40] is missing and the one for arguments above 40 is used in its place): next to 20 the value returned is too large by more than eight parts in ten million. || C116_large_partial: C116 above 20, what holds: the value returned is the exponential integral to 13 parts in ten million."
  },
  {
   "property": "C117",
   "status": "partial",
   "theorems": [
    "Verif.Scat.C117_rih1_partial",
    "Verif.Scat.C117_rih1_fails"
   ],
   "note": "C117_rih1_partial: C117, what holds: as long as neither argument exceeds 20, `RIH1(X1, X2, X3)` is `e^{-X1} (Ei(X2) - Ei(X3))` to 3 parts in `10^14` of `e^{-X1} max(1, Ei(max(X2, X3)))`. || C117_rih1_fails: C117 fails as soon as the second argument exceeds 20 (and up to 200): the result is too large by more than 3 parts in a thousand of its leading term."
  },
  {
   "property": "C118",
   "status": "partial",
   "theorems": [
    "Verif.Conv.C118_axis",
    "Verif.Conv.C118_rodrigues_partial",
    "Verif.Conv.C118_bunge_partial",
    "Verif.Conv.C118_matrix_partial",
    "Verif.Conv.C118_homochoric",
    "Verif.Conv.C118_cubochoric",
    "Verif.Conv.C118_matrix_fails",
    "Verif.Conv.C118_bunge_fails",
    "Verif.Conv.C118_rodrigues_fails"
   ],
   "note": "C118_rodrigues_partial: C118, from a Rodrigues-Frank vector: axis-angle, quaternion and Euler angles for every vector; matrices, homochoric and cubochoric vectors for a magnitude that is not negative. Missing: negative magnitudes, see `C118_rodrigues_fails`. || C118_bunge_partial: C118, from Euler angles: quaternion, matrix and axis-angle for all angles; homochoric and cubochoric vectors up to `1e-8` rad; the Rodrigues vector away from the identity and away from the rotations within `1e-10` of a half turn, which are sent to `inf`. Missing: the Rodrigues vector of the identity, see `C118_bunge_fails`. || C118_matrix_partial: C118, from a rotation matrix that is not a half turn: quaternion, Euler angles and cubochoric vector (up to `1e-8` rad); also axis-angle and homochoric vector when it is not the identity either, and the Rodrigues vector when moreover the scalar part of its quaternion is not within `1e-10` of zero. Missing: half turns and the identity, see `C118_matrix_fails`. || C118_matrix_fails: C118 fails for matrices: the axis that `om2ax` returns for the identity and for every half turn is no unit vector (0/0), and the quaternion of a half turn is wrong. || C118_bunge_fails: C118 fails for Euler angles: the Rodrigues vector of the identity has no unit axis. || C118_rodrigues_fails: C118 fails for negative Rodrigues magnitudes: `ro2om` takes the small-angle series for every negative angle."
  },
  {
   "property": "C119",
   "status": "partial",
   "theorems": [
    "Verif.Conv.C119_defined",
    "Verif.Conv.C119_faithful_partial",
    "Verif.Conv.C119_fails"
   ],
   "note": "C119_faithful_partial: C119, partial: for quaternions without a zero component the coordinates are angles in `(-\u03c0/2, \u03c0/2)`, they do not depend on the sign of the quaternion, and they determine the rotation. Missing: quaternions with two or more zero components, among them the identity, see `C119_fails`. || C119_fails: C119 fails at the identity: three of its six coordinates are 0/0."
  },
  {
   "property": "C120",
   "status": "partial",
   "theorems": [
    "Verif.Mck.C120_directions",
    "Verif.Mck.C120_escape",
    "Verif.Mck.C120_energy_partial",
    "Verif.Mck.C120_energy_fails",
    "Verif.Mck.C120_start",
    "Verif.Mck.C120_physics",
    "Verif.Mck.C120_azimuth"
   ],
   "note": "C120_energy_partial: C120, energy, partial: an event costs energy as long as the electron has at least 0.0077 times the mean ionisation potential. Missing: below that the logarithm of the stopping power changes sign, see `C120_energy_fails`. || C120_energy_fails: C120 fails for very slow electrons: below 0.0076 times the mean ionisation potential an event *adds* energy."
  },
  {
   "property": "C121",
   "status": "proved",
   "theorems": [
    "Verif.Mck.C121_trial",
    "Verif.Mck.C121_index",
    "Verif.Mck.C121_histogram",
    "Verif.Mck.C121_bins"
   ],
   "note": "Proved in full on the model (assumptions of DESIGN.md). C121_trial: C121: a trial increments the cell `i` if and only if the electron leaves the sample within the allowed number of steps and `i` is the flat index of its energy, depth and direction bins, all in range. || C121_index: C121: flat indices of bins in range are in range of the accumulator, and different bins have different indices. || C121_histogram: C121: whatever the order in which the device executes the increments of the work items, the accumulator of a launch holds, in each cell, the number of trials that end in that cell (modulo 2^32, so exactly whenever there are fewer than 2^32 trials in all); in particular the histogram does not depend on the schedule, and its total is at most the number of trials."
  },
  {
   "property": "C122",
   "status": "proved",
   "theorems": [
    "Verif.Mck.C122_mirror"
   ],
   "note": "Proved in full on the model (assumptions of DESIGN.md). C122_mirror: C122: with `omega = 0` the simulation is mirror symmetric. Reversing all azimuths of a trajectory reflects it in the plane of beam and surface normal: same depths, same energies, it leaves the sample in the same event with the same escape depth, and is counted in the same energy, depth and first direction bins; the last direction index `i` becomes `nDir - 1 - i`, unless the direction lies on the border between two bins."
  },
  {
   "property": "C123",
   "status": "partial",
   "theorems": [
    "Verif.Mck.C123_alive_partial",
    "Verif.Mck.C123_injective",
    "Verif.Mck.C123_range",
    "Verif.Mck.C123_fails"
   ],
   "note": "C123_alive_partial: C123, partial: a generator state that meets L'Ecuyer's condition meets it for ever, so no component ever collapses. Missing: the seeds that the host code draws need not meet the condition, see `C123_fails`. || C123_fails: C123 fails for seeds that `np.random.randint(0, 232)` may draw (ebsd_mc.py:210-213): a component below its bound is zero from the next step on, and with all four components below their bounds every number drawn is zero, so that no electron of this work item is ever counted."
  },
  {
   "property": "C124",
   "status": "partial",
   "theorems": [
    "Verif.Mck.C124_result",
    "Verif.Mck.C124_returns",
    "Verif.Mck.C124_energies",
    "Verif.Mck.C124_fails"
   ],
   "note": "C124_fails: C124 fails: `run_simulation` need not return: with `n_max_steps_override = 0` no launch ever counts anything, and the loop runs for ever."
  },
  {
   "property": "C125",
   "status": "partial",
   "theorems": [
    "Verif.Mck.C125_steps_partial",
    "Verif.Mck.C125_fails",
    "Verif.Mck.C125_bins"
   ],
   "note": "C125_steps_partial: C125, partial: the number of steps is one of 250, 500, ..., 2000; every smaller one of these left some energy bin below the beam energy empty in its test launch, and if the result is below 2000, its test launch filled all of them. Missing: 2000 is returned also if no test launch filled all bins, see `C125_fails`. || C125_fails: C125 fails: if the test launches count nothing (for instance because they have no electrons), 2000 steps are \"sufficient\" although every energy bin is empty."
  },
  {
   "property": "C126",
   "status": "partial",
   "theorems": [
    "Verif.Mck.C126_density",
    "Verif.Mck.C126_rejects",
    "Verif.Mck.C126_normalised",
    "Verif.Mck.C126_fails"
   ],
   "note": "C126_fails: C126 fails for linear interpolation and beyond the last bin. With the depth bins [0,1], [1,3], [3,7] nm: electrons only in the first bin (one per nm) give, linearly interpolated at 1 nm, density 0 instead of 2/3, because the straight line of the next segment is used; a query in the last segment between two markers raises `ValueError`; and quadratic interpolation with `extrapolate=\"error\"` does not raise at 10 nm, beyond the deepest bin, but extrapolates to more than five times the largest density."
  },
  {
   "property": "C127",
   "status": "partial",
   "theorems": [
    "Verif.Diff.C127_coefficients_partial",
    "Verif.Diff.C127_extinct_fails",
    "Verif.Diff.C127_phase_fails",
    "Verif.Diff.C127_rejects"
   ],
   "note": "C127_coefficients_partial: C127, partial: with absorption and the default phase convention every entry of the returned matrix is the wavelength times the Fourier coefficient of the Bloch formalism (the structure factor of the complex atomic factors) for the difference `hkl[j] - hkl[i]`, up to 2e-8 per nm, and exactly so if neither the elastic nor the absorptive structure factor vanishes; with `apply_qg_shift=False` the same holds after multiplication by the phase factor of the elastic structure factor. The wavelength is the one of the Bloch helper and the absorption length of 000 is `1/(\u03bb U'_0)`. Missing: see `C127_extinct_fails` and `C127_phase_fails`. || C127_extinct_fails: C127 fails for extinct reflections: a coefficient that vanishes is replaced by `1e-8 (1 + i)`. || C127_phase_fails: C127 fails without absorption: the phase, and already the sign, of the coefficients is lost: whatever the structure factor, the entry is its modulus. For one atom at `(1/2, 0, 0)` the coefficient of 100 is negative and the entry positive."
  },
  {
   "property": "C128",
   "status": "partial",
   "theorems": [
    "Verif.Clean.C128_standard_clean_partial",
    "Verif.Clean.C128_small_fails"
   ],
   "note": "C128_standard_clean_partial: C128, partial: on patterns of at least 3 by 3 pixels `standard_clean` never raises; number and shape of the patterns and the scan shape are kept; the result is clean; and the same image added to all patterns changes nothing. Missing: smaller patterns, see `C128_small_fails`. || C128_small_fails: C128 fails for patterns with one or two rows or columns: `standard_clean` raises, and the patterns of the object, which the caller's tensor shares, have been replaced by an intermediate result."
  },
  {
   "property": "C129",
   "status": "partial",
   "theorems": [
    "Verif.Clean.C129_frame_partial",
    "Verif.Clean.C129_detached_partial",
    "Verif.Clean.C129_alias_fails"
   ],
   "note": "C129_frame_partial: C129, partial: in every history a method call changes nothing but the patterns of the objects built on the same tensor as its object and that tensor itself: other tensors of the caller, and the objects built on them, are left alone. Missing: the objects that share the tensor, and the caller's tensor, see `C129_alias_fails`. || C129_detached_partial: C129, partial: once `contrast_enhance_clahe`, `standard_clean` or `do_nlpar` has succeeded, the object has a tensor of its own: whatever is done later to the other objects and their tensors, its patterns stay as they are (unless a new object is built on this very tensor). || C129_alias_fails: C129 fails for objects built on one tensor: subtracting the background (or normalising) through one of them changes the caller's tensor and the patterns of the other."
  },
  {
   "property": "C130",
   "status": "partial",
   "theorems": [
    "Verif.Clean.C130_raise_partial",
    "Verif.Clean.C130_shape_fails"
   ],
   "note": "C130_raise_partial: C130, partial: a cleaning call that raises changes no pattern value and no other object, except `standard_clean` (`C128_small_fails`); calls other than `normalize_per_pattern` change nothing at all, and after a refused `normalize_per_pattern` a further normalisation or `do_nlpar` behaves as if it had not been called. Missing: the shape of the patterns, see `C130_shape_fails`. || C130_shape_fails: C130 fails for `normalize_per_pattern`: after a refused name the patterns are left flattened to `(n, h * w)`, and contrast enhancement is refused from then on although nothing is wrong with the patterns."
  },
  {
   "property": "C131",
   "status": "partial",
   "theorems": [
    "Verif.Clean.C131_nlpar_partial",
    "Verif.Clean.C131_duplicate_fails"
   ],
   "note": "C131_nlpar_partial: C131, partial: on a two-dimensional scan `do_nlpar` keeps shape and number of the patterns and the scan shape, leaves the caller's tensor alone, and replaces pattern `k` by a weighted mean of the patterns at most `k_rad` rows and columns away from it (and of no others), the largest weight being its own. A scan with one axis is refused. Missing: the cases where the result is not finite, see `C131_duplicate_fails`. || C131_duplicate_fails: C131 fails if two neighbours of the scan are identical: with `k_rad = 1` the result is not finite."
  },
  {
   "property": "C132",
   "status": "partial",
   "theorems": [
    "Verif.ReadMp.C132_read_partial",
    "Verif.ReadMp.C132_sites_fails"
   ],
   "note": "C132_read_partial: C132, partial: for a file with one atomic site (or with one energy) the master pattern is, hemisphere by hemisphere, the mean of the patterns of the energies weighted by the share of the electrons counted at each energy, summed over the sites; the northern hemisphere is the left half, the southern the right half, and the Laue group is that of the space group. Missing: several sites and energies, see `C132_sites_fails`. || C132_sites_fails: C132 fails for a crystal with several atomic sites: the sites are summed instead of the energies, the result has three axes and the constructor raises."
  },
  {
   "property": "C133",
   "status": "partial",
   "theorems": [
    "Verif.ReadMp.C133_init_partial",
    "Verif.ReadMp.C133_laue_fails"
   ],
   "note": "C133_init_partial: C133, partial: the constructor succeeds exactly if one of the three groups is given, the group is known, and the pattern has two axes (a pair of hemispheres: two axes each and the same number of rows); a pair is stored side by side, and the Laue group is the given one or that of the point or space group. Missing: the given Laue group is not checked, see `C133_laue_fails`. || C133_laue_fails: C133 fails: a Laue group that does not exist is accepted; its operators are refused later."
  },
  {
   "property": "C134",
   "status": "partial",
   "theorems": [
    "Verif.Inexact.C134_inexact_partial",
    "Verif.Inexact.C134_separated",
    "Verif.Inexact.C134_quantised",
    "Verif.Inexact.C134_overflow_fails"
   ],
   "note": "C134_inexact_partial: C134 (partial: not when a score leaves the range of the number format, see `C134_overflow_fails`): whatever the uninitialised memory, the chunks, the schedule of calls and the tie-breaking, if every score is computed to within `\u03b5 r` (in whatever precision, differently in every call) and rounding to the buffer is monotone, then the session returns `k` distinct valid global indices per query, each with a value within `\u03b5 r` of its exact score, and no other row is better by more than `2 \u03b5 r`, however many chunks there were. || C134_overflow_fails: C134 fails in half precision (the default `match_dtype`): squared distances above 65504 are stored as infinite, so whatever comes in a later chunk replaces a nearer row. One query at 0, data at 300 and 400 in two chunks searched with `query_chunk`, scores computed without any error: the row at 400 is returned, with distance infinity."
  },
  {
   "property": "C135",
   "status": "partial",
   "theorems": [
    "Verif.Blur.C135_size_partial",
    "Verif.Blur.C135_constant",
    "Verif.Blur.C135_range_partial",
    "Verif.Blur.C135_centre_odd_partial",
    "Verif.Blur.C135_centre_even_partial",
    "Verif.Blur.C135_range_fails",
    "Verif.Blur.C135_mode_fails",
    "Verif.Blur.C135_odd_side_fails",
    "Verif.Blur.C135_size_rounding_fails"
   ],
   "note": "C135_size_partial: C135 (partial): for every positive scale factor, `BlurAndDownsample` with mode `bicubic` or `bilinear` returns an image exactly when the kernel (radius: the scale rounded half up) fits the reflecting border and neither output side is zero, and the output then has `\u230aH / scale\u230b` rows and `\u230aW / scale\u230b` columns. Missing: every other mode raises (`C135_mode_fails`); in double precision the size can be one less (`C135_size_rounding_fails`). || C135_range_partial: C135 (partial): with mode `bilinear` no grey level leaves the range of the input. The default mode `bicubic` does not have this property: `C135_range_fails`. || C135_centre_odd_partial: C135 (partial): for an odd integer scale `2k + 1` dividing two even image sides, output pixel `(i, j)` of the default mode is exactly the blurred image (`GaussianBlur2d`) at the centre of block `(i, j)`. Missing: sides that are odd, where the blur drops a row and the samples drift (`C135_odd_side_fails`). || C135_centre_even_partial: C135 (partial): for an even integer scale `2k` dividing both image sides, output pixel `(i, j)` of the default mode is the four-by-four combination with weights (-3, 19, 19, -3)/32 of the blurred image around the centre of block `(i, j)` (the two middle samples are the two pixels next to the centre; positions beyond the border are clamped). || C135_range_fails: C135 fails: the default mode turns a non-negative image into one with a negative grey level (8 by 8 image, one bright column, scale 2): the bicubic weights are negative at the outer taps. || C135_mode_fails: C135 fails: every mode of `F.interpolate` other than the two above raises for every image, because the constructor always passes a boolean `align_corners` (or the input has four axes). || C135_odd_side_fails: C135 fails: for an odd side the blur drops the last row, so the samples of a side of `s * m` pixels are not at the block centres; the position of the last sample is short of its centre by `(2m - 1) / (2m)` of a pixel. The 9 by 9 image with scale 3 is accepted. || C135_size_rounding_fails: C135 fails in double precision: for scale 49 and a side of 98 pixels the rounded reciprocal `1.0 / 49` times 98 rounds to a number below 2, so `int(H * self.downscale)` is 1 and not `98 / 49 = 2`."
  },
  {
   "property": "C136",
   "status": "partial",
   "theorems": [
    "Verif.Place.C136_history_partial",
    "Verif.Place.C136_exact",
    "Verif.Place.C136_construct_partial",
    "Verif.Place.C136_construct_fails",
    "Verif.Place.C136_roundtrip_fails"
   ],
   "note": "C136_history_partial: C136 (partial): after any sequence of `to` and `set_fp_dtype` calls on a cell whose tensors are on one device, every tensor is on the device asked for last (`cell.device`); a tensor of real numbers has the dtype asked for last and its value is the original one rounded to each dtype asked for in turn; the atomic numbers and their dtype never change; `dsm2` stays `None` exactly when it was. Missing: no cell can be built on another device than the CPU (`C136_construct_fails`), a return to a wider dtype does not restore the values (`C136_roundtrip_fails`), and the integer multiplicities become floating numbers (part of this statement, `Attr.mults` is cast). || C136_construct_partial: C136: a cell built on the CPU is in one place, so the two statements above hold for it and every history. || C136_construct_fails: C136 fails: `Cell(..., device=d)` raises for every device other than the CPU, whatever the crystal: the symmetry operators are on the CPU and are multiplied with positions on `d`. || C136_roundtrip_fails: C136 fails: going to float32 and back to float64 does not restore a cell: the lattice parameter 1/3 nm (its nearest double) comes back as the nearest single, for any cast that rounds to nearest."
  },
  {
   "property": "C137",
   "status": "partial",
   "theorems": [
    "Verif.InvF.C137_get_partial",
    "Verif.InvF.C137_out_of_range",
    "Verif.InvF.C137_shapes_partial",
    "Verif.InvF.C137_single_fails",
    "Verif.InvF.C137_inverse_fails"
   ],
   "note": "C137_get_partial: C137 (partial): for every history of `set_inv_f_matrix` calls, accepted or refused, the getter returns for every index (negative ones count from the end) the matrix that the last accepted call gave for that pattern -- the identity for a call without tensor -- and raises before the first accepted call. Missing: the tensors with one matrix that the documentation allows are refused (`C137_single_fails`) and the matrix returned is not inverted (`C137_inverse_fails`). || C137_shapes_partial: C137 (partial): which tensors are accepted: the documented shapes (N, 3, 3) and (N, 9), besides (N, 1, 9), and no others with two or three axes. || C137_single_fails: C137 fails: one matrix for all patterns, documented as (1, 3, 3) or (1, 9), is refused for every scan with more than one pattern. || C137_inverse_fails: C137 fails: the getter is documented to return the inverse of the deformation gradient given to the setter; it returns the gradient itself."
  },
  {
   "property": "C138",
   "status": "proved",
   "theorems": [
    "Verif.C138_chain",
    "Verif.C138_normalise",
    "Verif.C138_unit"
   ],
   "note": "Proved in full on the model (assumptions of DESIGN.md). C138_chain: C138: composing any number of rotations with `qu_prod` in floating-point arithmetic (any precision `p`, any nearest rounding): up to sign the result is the exact product up to a relative error of `(1 + 2 ((1 + 2^-p)^4 - 1))^n - 1` for `n` multiplications. || C138_normalise: C138: `qu_norm` in floating-point arithmetic: each quaternion is divided by its length, up to `4.2 * 2^-p`. || C138_unit: C138: after at most `2^(p-6)` compositions of quaternions of unit length up to `5 * 2^-p` (what `qu_norm` gives) the result is a quaternion of unit length, and the exact product, up to a few roundings per composition."
  },
  {
   "property": "C139",
   "status": "partial",
   "theorems": [
    "Verif.C139_apply",
    "Verif.C139_relative_partial",
    "Verif.C139_short_fails"
   ],
   "note": "C139_relative_partial: C139 (partial): for points at least as long as 1 the error is relative to the length of the point. Missing: short points, see `C139_short_fails`. || C139_short_fails: C139 fails for short points: the exact unit quaternion of a rotation by 120 degrees takes every point with coordinates below `2^-(p+3)` (single precision: 7e-9) to the origin, whatever the nearest rounding."
  },
  {
   "property": "C140",
   "status": "partial",
   "theorems": [
    "Verif.C140_ori_angle",
    "Verif.C140_disori_partial",
    "Verif.C140_disori_fails"
   ],
   "note": "C140_disori_partial: C140 (partial): `disori_angle_laue` in floating-point arithmetic returns a number -- `2 arccos c` rounded, with `c` within `36 * 2^-p` of the largest `|re(h q1 q2* g)|` over both Laue groups -- provided that maximum is at most `1 - 36 * 2^-p`. Missing: orientations that are (nearly) equivalent, for which the argument of the arc cosine can exceed 1 and the result is NaN, see `C140_disori_fails`. || C140_disori_fails: C140: the partial theorem cannot be extended to equivalent orientations. In single and in double precision the unit quaternion (4, 2, 2, 1) / 5 with its components rounded has the disorientation angle NaN from itself, for every pair of Laue groups (exactly: 0), and so has the rotation angle `qu_angle` of the product of the quaternion and its conjugate."
  },
  {
   "property": "C141",
   "status": "proved",
   "theorems": [
    "Verif.C141_reduce"
   ],
   "note": "Proved in full on the model (assumptions of DESIGN.md). C141_reduce: C141: `ori_to_fz_laue` in floating-point arithmetic (half to double precision, any nearest rounding): the call succeeds, the result is a symmetric equivalent of the input up to `14 * 2^-p` of its length, its scalar part is not negative, and no symmetric equivalent exceeds its scalar part by more than `10 * 2^-p` of that length (it is the one nearest to the identity up to rounding)."
  },
  {
   "property": "C142",
   "status": "proved",
   "theorems": [
    "Verif.Scat.C142_optical",
    "Verif.Scat.C142_optical_hybrid"
   ],
   "note": "Proved in full on the model (assumptions of DESIGN.md). C142_optical: C142: for every element 1-98, nonzero displacement and positive voltage the forward (`g = 0`) imaginary part returned by `scatter_factor_WK` with the phonon channel alone is given by the optical theorem from the cross section of thermal diffuse scattering of the Weickenmeier-Kohl atom, at the mass ratio and the wave number of the electron; the real part at the same place is the amplitude. || C142_optical_hybrid: C142 for `scatter_factor_hybrid`: the forward imaginary part with the phonon channel alone is given by the optical theorem, at a wave number that agrees with the one of the CODATA wavelength to 4 parts in ten million; the clamp at zero has no effect."
  },
  {
   "property": "C143",
   "status": "proved",
   "theorems": [
    "Verif.Scat.C143_wavelength",
    "Verif.Scat.C143_wavenumber"
   ],
   "note": "Proved in full on the model (assumptions of DESIGN.md). C143_wavelength: C143: for every accelerating voltage the electron wavelength returned by `e_wavelength_eV_to_A` agrees with the relativistic de Broglie wavelength computed from the CODATA 2018 constants to 3 parts in ten million (and is not larger). || C143_wavenumber: C143, the wave number in `scatter_factor_WK` (per angstrom, voltage in kV): the forward absorption it returns is the one of the optical theorem at a wave number that exceeds the one of the CODATA wavelength by 4 to 7 parts in a hundred thousand, at every voltage up to 3000 kV."
  },
  {
   "property": "C144",
   "status": "proved",
   "theorems": [
    "Verif.Scat.C144_linspace",
    "Verif.Scat.C144_linspace_ends",
    "Verif.Scat.C144_logspace"
   ],
   "note": "Proved in full on the model (assumptions of DESIGN.md). C144_linspace: C144, `sampling=\"linspace\"`: for every number of intervals of at least one, the points along each axis are an odd number of at least three (what Simpson's rule needs; one more interval than asked for if that number is odd), equally spaced, from the lower to the upper end of the range. || C144_linspace_ends: the ends are met exactly || C144_logspace: C144, `sampling=\"logspace\"`: for an even or odd number of intervals of at least four, a lower end `a` with `a + eps > 0` below the upper end `b`, and any base above one, the points are an odd number: the lower end itself, then from `a + eps` to `b` in equal ratios."
  },
  {
   "property": "C145",
   "status": "proved",
   "theorems": [
    "Verif.Nlpar.C145_formula"
   ],
   "note": "Proved in full on the model (assumptions of DESIGN.md). C145_formula: C145: whenever nlpar returns a finite result, it is the published average: each denoised pattern is the mean of the patterns of the search window that lie on the scan, with weights `exp (-max (0, (d\u00b2 - n (\u03c3\u00b2 + \u03c3'\u00b2)) / (\u221a(2n) (\u03c3\u00b2 + \u03c3'\u00b2))) / g\u00b2)`, the central one multiplied by `exp bias` if `bias > 0`; `\u03c3\u00b2` is half the smallest mean squared difference to eight neighbours closest in the city-block distance, and the decay length `g` comes from at most ten steps of Newton's method (with the true derivative) from 1 for the equation \"mean central share = coeff\". Positions off the scan count as zero patterns of variance one in the noise estimate and in the fit. For every scan, radius, coefficient, tolerance, bias and order of ties in the offset sort."
  },
  {
   "property": "C146",
   "status": "proved",
   "theorems": [
    "Verif.Diff.C146_fourier"
   ],
   "note": "Proved in full on the model (assumptions of DESIGN.md). C146_fourier: C146: for every crystal (space group 1-230, non-degenerate cell), atomic scattering factor, `dmin` and voltage, the matrix returned by `calc_helper_bloch_formalism` consists of the Fourier coefficients `F(g_j - g_i) / (\u03c0 V)` of the reduced potential, with the structure factor summed over all atoms of the cell, up to one fixed factor that is 7 to 8 parts per million above 1; without absorption the real parts of the scattering factors are used and the mean absorption is 0, with absorption the mean absorption is the modulus of the coefficient of the imaginary parts for `000`."
  },
  {
   "property": "C147",
   "status": "partial",
   "theorems": [
    "Verif.C147_multiple",
    "Verif.C147_stage",
    "Verif.C147_smooth",
    "Verif.C147_singular_fails"
   ],
   "note": "C147_singular_fails: C147 fails (choice of the curve): the test `4A\u00b3 - 27B\u00b2 \u2260 0` has the wrong sign and is not taken modulo `N`, so for every `N \u2265 65536` the draws `X = 2`, `Y = 2`, `A = N - 3` are accepted after three random numbers, although the curve through that point (`B = 2`) is singular modulo `N`."
  },
  {
   "property": "C148",
   "status": "proved",
   "theorems": [
    "Verif.Samp.C148_sphere",
    "Verif.Samp.C148_rotations"
   ],
   "note": "Proved in full on the model (assumptions of DESIGN.md). C148_sphere: C148: the points of `s2_fibonacci(n, mode)`. Point `i` has height `z = 1 - 2 (i + \u03b5) / (n - 1 + 2 \u03b5)` with the prescribed offset `\u03b5` and azimuth `2\u03c0 i / \u03c6` with the golden ratio `\u03c6`; the heights decrease strictly, so the points are distinct, and they are symmetric about the equator. || C148_rotations: C148: the points of `so3_fibonacci(n)`, for every `n`: with `s = i + 1/2`, the quaternion number `i` has the pair of radii `\u221a(s/n)`, `\u221a(1 - s/n)` and the pair of angles `2\u03c0 s/\u221a2`, `2\u03c0 s/\u03c8`, where `\u03c8` agrees to 23 decimals with the positive solution of `x\u2074 = x + 4`, which is unique."
  },
  {
   "property": "C149",
   "status": "partial",
   "theorems": [
    "Verif.C149_matrix",
    "Verif.C149_roundtrip_partial",
    "Verif.C149_halfturn_fails"
   ],
   "note": "C149_roundtrip_partial: C149: the round trip quaternion \u2192 matrix \u2192 quaternion in floating-point arithmetic with `p \u2265 11` bits returns every component of a unit quaternion with positive scalar part `w` up to `(110 + 3.2 / w)` units of rounding. Missing: a bound independent of `w`, which is false, see `C149_halfturn_fails`. || C149_halfturn_fails: C149 fails close to half turns: for every precision `p \u2265 11` and every rounding to nearest there is a unit quaternion (up to 5 units of rounding) of floating-point numbers with positive scalar part that the round trip through the matrix changes by at least 1/2 in a component, whichever of the two signs is taken: the rotation returned is a different one."
  },
  {
   "property": "C150",
   "status": "partial",
   "theorems": [
    "Verif.C150_roundtrip_partial",
    "Verif.C150_small_fails"
   ],
   "note": "C150_roundtrip_partial: C150, partial: in binary floating-point arithmetic with `p \u2265 11` bits and correctly rounded elementary functions, the round trip of an axis (unit up to 4 units of rounding in the squared length) and a floating-point angle `0 < \u03b8 < \u03c0` through the quaternion returns the angle up to `20/\u03b8 + 7` units of rounding, and, unless it returns the angle 0, every component of the axis up to 12 units of rounding. Missing: small angles, see `C150_small_fails`. || C150_small_fails: C150 fails for small angles: for every precision and every rotation by an angle `\u03b8` with `0 < \u03b8` and `\u03b8\u00b2 \u2264 2^-p` (single precision: 2.4e-4, double precision: 1e-8), about any axis, the round trip through the quaternion returns the angle 0 and the z axis: the rotation is lost."
  },
  {
   "property": "C151",
   "status": "partial",
   "theorems": [
    "Verif.Fit.C151_search",
    "Verif.Fit.C151_orientation_partial",
    "Verif.Fit.C151_first_batch_fails",
    "Verif.Fit.C151_pattern",
    "Verif.Fit.C151_brightness",
    "Verif.Fit.C151_metric",
    "Verif.Fit.C151_dark_fails"
   ],
   "note": "C151_orientation_partial: C151 (partial): when the whole dictionary fits in one batch, the orientation returned for each pattern attains the best score at the returned pattern centre. Missing: longer dictionaries, see `C151_first_batch_fails`. || C151_first_batch_fails: C151 fails for longer dictionaries: only orientations among the first `batch` of the dictionary are ever returned. || C151_dark_fails: C151 fails on patterns whose pixels are all equally bright except one darker one (no periphery, no binning): pixels of maximal brightness have no grey level, so every displacement gets the same score, and the search returns the corner of its grid, whatever the master pattern, the dictionary, the place of the dark pixel and the true pattern centre."
  },
  {
   "property": "C152",
   "status": "partial",
   "theorems": [
    "Verif.C152_angular_partial",
    "Verif.C152_distance_partial",
    "Verif.C152_contrast_rule",
    "Verif.C152_contrast_fails",
    "Verif.C152_gain_fails"
   ],
   "note": "C152_angular_partial: C152 (partial), default metric: when all simulated patterns of the dictionary have the same contrast, every pattern recorded without noise from a dictionary orientation, with any positive gain and any offset, is indexed as an orientation whose simulated pattern is the same up to an offset. Missing: dictionaries of different contrast, see `C152_contrast_fails`. || C152_distance_partial: C152 (partial), distance metrics without quantisation, patterns centred: every pattern recorded without noise from a dictionary orientation with gain 1 and any offset is indexed as an orientation whose simulated pattern is the same up to an offset, whatever the contrasts. Missing: other gains, see `C152_gain_fails`. || C152_contrast_fails: C152 fails for the default metric: the inner products are not divided by the contrast of the simulated pattern. The pattern recorded without noise at the identity is indexed as the second orientation, although its correlation coefficient with the first simulation is 1 and with the second 1/2. || C152_gain_fails: C152 fails for the Euclidean metric when the detector has a gain: the pattern of the identity recorded with gain 10 is indexed as the second orientation."
  },
  {
   "property": "C153",
   "status": "partial",
   "theorems": [
    "Verif.Grid.C153_pointwise",
    "Verif.Grid.C153_range",
    "Verif.Grid.C153_bilinear_partial",
    "Verif.Grid.C153_pixel_partial",
    "Verif.Grid.C153_seam_fails",
    "Verif.Grid.C153_align_fails",
    "Verif.Grid.C153_covers_partial"
   ],
   "note": "C153_bilinear_partial: C153 (partial), `align_corners=False` as in dictionary indexing: in a direction whose square-Lambert image is at row `i + a` and column `j + b` of its hemisphere, with pixels on both sides, the value is the bilinear interpolation of the four pixels around it of that hemisphere. Missing: the half pixel next to the seam, see `C153_seam_fails`, and `align_corners=True`, see `C153_align_fails`. || C153_pixel_partial: C153 (partial): in the direction of the centre of a pixel, the value is that pixel. || C153_seam_fails: C153 fails within half a pixel of the seam, for hemispheres of any size: north black, south white, and yet a direction strictly inside the northern hemisphere is looked up as grey (the right edge of the northern square, the equator at `+x`, is blended with the left edge of the southern one, the equator at `-x`). || C153_align_fails: C153 fails with `align_corners=True`, as in the grid refinement: for hemispheres of odd size the pixel at the centre is the pole, but the look-up at the pole returns a mixture with the next pixel, while the look-up of dictionary indexing (`align_corners=False`) returns the pixel. The same orientation is simulated differently by the two. || C153_covers_partial: C153 (partial): every pixel of either hemisphere is the value in some direction of that hemisphere, that of the centre of the pixel."
  },
  {
   "property": "C154",
   "status": "partial",
   "theorems": [
    "Verif.Rays.C154_refine_partial",
    "Verif.Rays.C154_refine_fails",
    "Verif.Rays.C154_gradient_fails",
    "Verif.Rays.C154_gradient_partial",
    "Verif.Rays.C154_index_partial",
    "Verif.Rays.C154_index_fails",
    "Verif.Rays.C154_index_count_fails",
    "Verif.Rays.C154_index_square_fails",
    "Verif.Rays.C154_both_fails"
   ],
   "note": "C154_refine_partial: C154 (partial), grid refinement: with the scan position of the pattern at the origin, or with the scan coordinates negated, the rays are right. Missing: see `C154_refine_fails`. || C154_refine_fails: C154 fails in the grid refinement: the scan coordinates are added instead of subtracted, so that for every pattern away from the origin and every detector with a pixel off the sample plane the rays are wrong. || C154_gradient_fails: C154 fails in the gradient refinement, which ignores the scan coordinates. || C154_gradient_partial: C154 (partial), gradient refinement: right for a pattern at the origin. || C154_index_partial: C154 (partial), indexing of a single pattern whose scan position is given with three coordinates, the third 0: the rays are right. || C154_index_fails: C154 fails in the indexing for scan positions given with two coordinates, as they are documented: the call raises, whatever the detector and the number of patterns. || C154_index_count_fails: C154 fails in the indexing of several patterns: also with three coordinates the call raises, except when there are as many patterns as detector pixels (or a single pixel). || C154_index_square_fails: C154 fails in that case too: with as many patterns as pixels the ray to pixel `i` starts at the scan position of pattern `i`, for every pattern. || C154_both_fails: C154 fails for a scan that is first indexed and then refined: no array of scan coordinates is accepted by both."
  },
  {
   "property": "C155",
   "status": "proved",
   "theorems": [
    "Verif.C155_upper",
    "Verif.C155_lower",
    "Verif.C155_hemisphere",
    "Verif.C155_pixel",
    "Verif.C155_bins",
    "Verif.C155_interior"
   ],
   "note": "Proved in full on the model (assumptions of DESIGN.md). C155_upper: C155: the projection of the upper hemisphere preserves areas up to the factor `\u03c0/2`: the directions that are mapped into a region of the square have `\u03c0/2` times the area of the region as their solid angle. || C155_lower: C155: so does that of the lower hemisphere. || C155_hemisphere: The solid angle of the upper hemisphere is `2\u03c0`."
  },
  {
   "property": "C156",
   "status": "proved",
   "theorems": [
    "Verif.Cubo.C156_cu2ho",
    "Verif.Cubo.C156_ho2cu"
   ],
   "note": "Proved in full on the model (assumptions of DESIGN.md). C156_cu2ho: C156: `cu2ho` preserves volumes: the cubochoric vectors that are mapped into a region of homochoric space have the volume of that region. || C156_ho2cu: C156: so does `ho2cu`."
  },
  {
   "property": "C157",
   "status": "proved",
   "theorems": [
    "Verif.Cubo.C157_qu2ho",
    "Verif.Cubo.C157_standard",
    "Verif.Cubo.C157_qu2cu",
    "Verif.Cubo.C157_cells"
   ],
   "note": "Proved in full on the model (assumptions of DESIGN.md). C157_qu2ho: C157: `qu2ho` measures rotations uniformly: the unit quaternions with rotation angle of at least `1e-8` whose homochoric vector lies in a region have the volume of the region as their measure (on the whole sphere of quaternions, both signs). || C157_standard: C157: with the positive sign of the scalar part, which `qu_std` gives, these are the vectors of the homochoric ball. || C157_qu2cu: C157: cubochoric coordinates measure rotations uniformly: the unit quaternions with positive scalar part whose cubochoric vector lies in a region have the volume of the part of the region inside the cube as their measure (rotation angles of at least `1e-8`: a small cube is left out)."
  },
  {
   "property": "C158",
   "status": "proved",
   "theorems": [
    "Verif.Scat.C158_lvd",
    "Verif.Scat.C158_hybrid",
    "Verif.Scat.C158_wk",
    "Verif.Scat.C158_forward"
   ],
   "note": "Proved in full on the model (assumptions of DESIGN.md). C158_lvd: C158, `scatter_factor_LVD`: for every element 1-102 the scattering factor (convention \"ITC\") is positive at every reciprocal length, strictly decreasing with its magnitude, and at large reciprocal lengths that of the bare nucleus, up to one part in `10^9`. || C158_hybrid: C158, `scatter_factor_hybrid`: the same for elements 1-98. || C158_wk: C158, `scatter_factor_WK`: for every element 1-98 the real part (convention \"ITC\") is, from some reciprocal length on, that of the bare nucleus, to seven parts in ten thousand."
  },
  {
   "property": "C159",
   "status": "proved",
   "theorems": [
    "Verif.Scat.C159_quarter",
    "Verif.Scat.C159_converges"
   ],
   "note": "Proved in full on the model (assumptions of DESIGN.md). C159_quarter: C159: the integral over a square around the origin is four times the one over its quarter. || C159_converges: C159: for every element 1-102, every displacement, reflection and voltage, the absorptive part that `scatter_factor_LVD` returns with equidistant sampling of `[0, R]` tends, as the number of intervals grows, to the Bird-King integral over the square of half width `R`, damped and scaled with the relativistic factor; `f` is the scattering factor that the same function returns with the convention \"ITC\"."
  },
  {
   "property": "C160",
   "status": "proved",
   "theorems": [
    "Verif.Cubo.C160_uniform",
    "Verif.Cubo.C160_share",
    "Verif.Cubo.C160_unique",
    "Verif.Cubo.C160_target"
   ],
   "note": "Proved in full on the model (assumptions of DESIGN.md). C160_uniform: C160: `ori_to_fz_laue` keeps a uniform distribution uniform: the quaternions whose reduction lies in a region `B` have the measure of the part of `B` in the fundamental zone, times the order of the Laue group (both signs of the quaternion counted). || C160_share: C160: every fundamental zone holds the same share of all orientations: the measure `2\u03c0\u00b2` of the unit quaternions divided by the order of the Laue group. || C160_unique: C160: almost every orientation has exactly one symmetric equivalent in the fundamental zone: those with two form a set of measure 0."
  },
  {
   "property": "C161",
   "status": "proved",
   "theorems": [
    "Verif.S2.C161_sector",
    "Verif.S2.C161_accepted"
   ],
   "note": "Proved in full on the model (assumptions of DESIGN.md). C161_sector: C161: the standard sector of every Laue class holds the same share of the sphere: `4\u03c0` divided by the order of the Laue group. || C161_accepted: C161: what `s2_in_fz_laue` accepts of the sphere is the share of the class, up to its tolerance: at least `4\u03c0` divided by the order of the Laue group, and at most `144 EPS` more."
  },
  {
   "property": "C162",
   "status": "proved",
   "theorems": [
    "Verif.Cubo.C162_uniform"
   ],
   "note": "Proved in full on the model (assumptions of DESIGN.md). C162_uniform: C162: `so3_uniform_quat` is uniform: when the draws are uniform in the cube, the probability that the returned quaternion lies in a region is the share of the region in the measure `2\u03c0\u00b2` of the unit quaternions."
  },
  {
   "property": "C163",
   "status": "proved",
   "theorems": [
    "Verif.S2.C163_area",
    "Verif.S2.C163_rotation",
    "Verif.S2.C163_sphere",
    "Verif.S2.C163_pole"
   ],
   "note": "Proved in full on the model (assumptions of DESIGN.md). C163_area: C163: the area of a set of directions as the volume of its cone equals the area in height and azimuth about the `z` axis. || C163_rotation: C163: the area in height and azimuth is the same about every axis: it does not change when `qu_apply` turns the directions."
  },
  {
   "property": "C164",
   "status": "proved",
   "theorems": [
    "Verif.S2.C164_uniform",
    "Verif.S2.C164_draw"
   ],
   "note": "Proved in full on the model (assumptions of DESIGN.md). C164_uniform: C164: if an orientation is uniformly distributed then `qu_apply` turns any fixed direction into a uniformly distributed one. || C164_draw: C164: a direction turned by an orientation drawn with `so3_uniform_quat` hits every set with probability its area over `4\u03c0`."
  },
  {
   "property": "C165",
   "status": "proved",
   "theorems": [
    "Verif.S2.C165_raises",
    "Verif.S2.C165_uniform"
   ],
   "note": "Proved in full on the model (assumptions of DESIGN.md). C165_raises: C165: the directions on which `s2_to_fz_laue` raises cover at most `144 EPS` per symmetry operation of the sphere. || C165_uniform: C165: the directions that `s2_to_fz_laue` takes into a set have the area of the part of the set within the sector, times the order of the Laue group, up to `144 EPS` per symmetry operation."
  },
  {
   "property": "C166",
   "status": "proved",
   "theorems": [
    "Verif.Samp.C166_count",
    "Verif.Samp.C166_avg",
    "Verif.Samp.C166_limit",
    "Verif.Samp.C166_sets"
   ],
   "note": "Proved in full on the model (assumptions of DESIGN.md). C166_count: C166: the number of points of `s2_fibonacci` in any rectangle of heights and azimuths differs from the share of its area by at most `25 \u221an + 432`. || C166_avg: C166: the same for the default mode, with the smaller constant. || C166_limit: C166: the share of the points of `s2_fibonacci` in a rectangle tends to the share of its area on the sphere."
  },
  {
   "property": "C167",
   "status": "proved",
   "theorems": [
    "Verif.S2.C167_even",
    "Verif.S2.C167_count"
   ],
   "note": "Proved in full on the model (assumptions of DESIGN.md). C167_even: C167: the sample is spread evenly: an open part of the sector gets at least its share of the requested number, a closed set of directions at most its share, up to any `\u03b4`, once enough are requested. || C167_count: C167: the sample has the requested size: at least `1 - \u03b4` of it and at most `1 + 36 order EPS / \u03c0 + \u03b4` of it, once enough are requested."
  },
  {
   "property": "C168",
   "status": "proved",
   "theorems": [
    "Verif.S2.C168_even",
    "Verif.S2.C168_count"
   ],
   "note": "Proved in full on the model (assumptions of DESIGN.md). C168_even: C168: the sample is spread evenly, with twice the requested density: an open part of the sector gets at least twice its share of the requested number, a closed set of directions at most twice its share, up to any `\u03b4`, once enough are requested. || C168_count: C168: the sample holds twice the requested number: at least `2 (1 - \u03b4)` of it and at most `2 (1 + 36 order EPS / \u03c0 + \u03b4)` of it, once enough are requested."
  },
  {
   "property": "C169",
   "status": "proved",
   "theorems": [
    "Verif.Cubo.C169_upper",
    "Verif.Cubo.C169_lower"
   ],
   "note": "Proved in full on the model (assumptions of DESIGN.md). C169_upper: C169, upper bound: the probability (times `\u03c0\u00b2`) of an orientation in a set is at most the uniform measure of the set enlarged by the accuracy of the conversion, plus `2e-8` when the identity is in the set (rotations of less than 0.0021 rad become the identity). || C169_lower: C169, lower bound: it is at least the measure of the orientations that stay in the set under every such displacement."
  },
  {
   "property": "C170",
   "status": "proved",
   "theorems": [
    "Verif.Cubo.C170_open",
    "Verif.Cubo.C170_closed",
    "Verif.Cubo.C170_haar"
   ],
   "note": "Proved in full on the model (assumptions of DESIGN.md). C170_open: C170, open sets of orientations get at least their share of a fine grid: the probability of C169. || C170_closed: C170, closed sets get at most their share. || C170_haar: C170: in terms of the uniform measure of orientations, up to the accuracy of the conversion."
  },
  {
   "property": "C171",
   "status": "proved",
   "theorems": [
    "Verif.Cubo.C171_open",
    "Verif.Cubo.C171_closed"
   ],
   "note": "Proved in full on the model (assumptions of DESIGN.md). C171_open: C171, open sets of orientations get at least their share of a large super-Fibonacci sample, up to `5e-24` rad. || C171_closed: C171, closed sets get at most their share, up to `5e-24` rad."
  },
  {
   "property": "C172",
   "status": "partial",
   "theorems": [
    "Verif.S2.C172_sector_partial",
    "Verif.S2.C172_nan_fails",
    "Verif.S2.C172_cubic_partial",
    "Verif.S2.C172_cubic_accepted_partial"
   ],
   "note": "C172_sector_partial: C172, classes 2 to 9 (and 1, which is exact): rounding does not reject a direction of the sector whose third component is at most 1, and an accepted direction is in the sector up to the tolerance of the code and eight units of rounding. Missing: third components above 1, for which the claim is false, see `C172_nan_fails`; cubic classes: `C172_cubic_partial`. || C172_nan_fails: C172 fails for the cubic classes 10 and 11 in single precision: the direction `(1, 21 / 2^25, 29 / 2^26)`, of length 1 up to `1e-12`, is equivalent to `(21 / 2^25, 29 / 2^26, 1)`, which is inside the sector (near its corner, the pole); `qu_apply` makes the third component `1 + 2^-23`, the arc cosine is NaN, and the image is rejected. || C172_cubic_partial: C172, cubic classes: rounding does not reject a direction of the sector, when the tolerance of the code is at least 16 units of rounding (single and double precision: yes). The sector is given by the azimuth and the third component; for a unit vector with components of one sign the condition on the latter says that it is the largest component. Converse: `C172_cubic_accepted_partial`. Missing: third components above 1, see `C172_nan_fails`. || C172_cubic_accepted_partial: C172, cubic classes, converse: an accepted direction is in the sector up to the tolerance of the code and 25 units of rounding. Missing from C172: acceptance of computed images, see `C172_nan_fails`."
  },
  {
   "property": "C173",
   "status": "proved",
   "theorems": [
    "Verif.Fit.C173_direction",
    "Verif.Fit.C173_distinct",
    "Verif.Fit.C173_bruker",
    "Verif.Fit.C173_scale_rotate"
   ],
   "note": "Proved in full on the model (assumptions of DESIGN.md). C173_direction: C173. `apply_geometry` returns the direction of the pixel's place in the sample frame, and NaN only for the place of the source. || C173_distinct: C173. For an orthogonal matrix and a source outside the detector plane (the third coordinate of `R\u1d40 t` is not zero) every pixel `(x, y, 0)` has a direction, and different pixels have different directions. || C173_bruker: C173. A geometry from `bruker_geometries_to_SE3` has its source outside the detector plane exactly when the detector distance is not zero."
  },
  {
   "property": "C174",
   "status": "partial",
   "theorems": [
    "Verif.CovEigen.C174_principal_partial",
    "Verif.CovEigen.C174_correlation_partial",
    "Verif.CovEigen.C174_empty_batch_fails"
   ],
   "note": "C174_principal_partial: C174, for batches none of which is empty (see `C174_empty_batch_fails`): after any sequence of batches with at least two observations, the last `k` columns of any result of `get_eigenvectors` are orthonormal, and among all systems of `k` orthonormal vectors they capture the largest sum of squared deviations from the mean and leave the smallest squared distance of the observations. || C174_correlation_partial: C174 with `correlation=True`: the same for the deviations in units of the standard deviation of each feature. Missing, besides empty batches: features without variation, whose correlation is NaN. || C174_empty_batch_fails: C174 fails when a batch is empty: there is no covariance to decompose."
  }
 ]
}