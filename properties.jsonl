{"id": "C01", "title": "Quaternion product is Hamilton's product", "statement": "qu_prod_raw(a,b) equals the Hamilton product a*b; qu_prod(a,b) equals +-(a*b) with non-negative scalar part; qu_prod_pos_real is the absolute scalar part of a*b and qu_triple_prod_pos_real is that of a*b*c; multiplying by qu_conj(a) gives |a|^2.", "quantifier": "all quadruples of real quaternion components", "why_tests_cant": "the inputs form a continuum; sampling quaternions cannot rule out a measure-zero or unsampled failure", "anchors": ["ebsdtorch/s2_and_so3/quaternions.py:qu_prod_raw", "ebsdtorch/s2_and_so3/quaternions.py:qu_prod", "ebsdtorch/s2_and_so3/quaternions.py:qu_prod_pos_real", "ebsdtorch/s2_and_so3/quaternions.py:qu_triple_prod_pos_real", "ebsdtorch/s2_and_so3/quaternions.py:qu_conj"]}
{"id": "C02", "title": "Standardisation keeps the rotation", "statement": "qu_std(q) is q or -q, has a non-negative scalar part, is idempotent, and rotates every vector exactly as q does; qu_norm_std of a non-zero quaternion is a unit quaternion on the same ray up to sign.", "quantifier": "all real quaternions and vectors", "why_tests_cant": "the inputs form a continuum; sampling quaternions cannot rule out a measure-zero or unsampled failure", "anchors": ["ebsdtorch/s2_and_so3/quaternions.py:qu_std", "ebsdtorch/s2_and_so3/quaternions.py:qu_norm", "ebsdtorch/s2_and_so3/quaternions.py:qu_norm_std"]}
{"id": "C03", "title": "qu_apply is the rotation action", "statement": "For a unit quaternion q, qu_apply(q,v) is the vector part of q*v*conj(q): it is linear, preserves dot and cross products, and qu_apply(qu_prod(a,b),v)=qu_apply(a,qu_apply(b,v)).", "quantifier": "all unit quaternions and all vectors", "why_tests_cant": "the inputs form a continuum; sampling quaternions cannot rule out a measure-zero or unsampled failure", "anchors": ["ebsdtorch/s2_and_so3/quaternions.py:qu_apply", "ebsdtorch/s2_and_so3/quaternions.py:qu_prod"]}
{"id": "C04", "title": "Great-circle alignment of point sets", "statement": "quaternion_rotate_sets_sphere(p,q) returns a unit quaternion whose rotation takes the unit vector p to q.", "quantifier": "all pairs of unit vectors", "why_tests_cant": "the inputs form a continuum; sampling quaternions cannot rule out a measure-zero or unsampled failure", "anchors": ["ebsdtorch/s2_and_so3/quaternions.py:quaternion_rotate_sets_sphere"]}
{"id": "C05", "title": "Misorientation angle range", "statement": "For a standardised unit quaternion qu_angle lies in [0,pi] and its half-cosine is the scalar part; the angle of q and -q agree after standardisation.", "quantifier": "all unit quaternions", "why_tests_cant": "the inputs form a continuum; sampling quaternions cannot rule out a measure-zero or unsampled failure", "anchors": ["ebsdtorch/s2_and_so3/quaternions.py:qu_angle", "ebsdtorch/s2_and_so3/quaternions.py:qu_std"]}
{"id": "C06", "title": "Laue group tables are groups", "statement": "For every Laue id 1..11 laue_elements returns unit quaternions, identity first, no two equal up to sign, closed under product and inverse up to sign, and exactly get_laue_mult/2 of them; for a given id the list is the crystallographic rotation group of that Laue class.", "quantifier": "all 11 ids and all pairs of elements, in exact arithmetic", "why_tests_cant": "floating-point tables can only be compared approximately; closure is an exact algebraic statement about irrational entries", "anchors": ["ebsdtorch/s2_and_so3/laue_generators.py:laue_elements", "ebsdtorch/s2_and_so3/laue_generators.py:get_laue_mult"]}
{"id": "C07", "title": "Reduction to the fundamental zone keeps the orientation", "statement": "ori_to_fz_laue(q,id) is +-(q*g) for some g of the Laue group, has unit norm if q has, non-negative scalar part, and its rotation angle is minimal among all symmetric equivalents of q.", "quantifier": "all quaternions, all Laue ids", "why_tests_cant": "the inputs form a continuum; sampling quaternions cannot rule out a measure-zero or unsampled failure", "anchors": ["ebsdtorch/s2_and_so3/laue_fz_ori.py:ori_to_fz_laue", "ebsdtorch/s2_and_so3/laue_fz_ori.py:ori_equiv_laue"]}
{"id": "C08", "title": "Reduction is independent of the representative", "statement": "Replacing q by any symmetric equivalent q*g (or -q) does not change the disorientation angle to the identity of ori_to_fz_laue, and does not change its output when the minimum is unique.", "quantifier": "all quaternions, all ids, all group elements", "why_tests_cant": "the inputs form a continuum; sampling quaternions cannot rule out a measure-zero or unsampled failure", "anchors": ["ebsdtorch/s2_and_so3/laue_fz_ori.py:ori_to_fz_laue", "ebsdtorch/s2_and_so3/laue_fz_ori.py:ori_angle_laue"]}
{"id": "C09", "title": "Closed-form FZ membership equals brute force", "statement": "For scalar part >= 0, ori_in_fz_laue(q,id) holds exactly when no symmetric equivalent of q has a larger absolute scalar part.", "quantifier": "all quaternions with non-negative scalar part, all 11 ids", "why_tests_cant": "a region boundary is a measure-zero set which sampling never hits", "anchors": ["ebsdtorch/s2_and_so3/laue_fz_ori.py:ori_in_fz_laue", "ebsdtorch/s2_and_so3/laue_fz_ori.py:ori_in_fz_laue_brute", "ebsdtorch/s2_and_so3/laue_fz_ori.py:ori_to_fz_laue"]}
{"id": "C10", "title": "Reduced orientations are inside the FZ", "statement": "ori_in_fz_laue(ori_to_fz_laue(q,id),id) is True, so reduction is idempotent on rotation angle.", "quantifier": "all quaternions, all ids", "why_tests_cant": "the inputs form a continuum; sampling quaternions cannot rule out a measure-zero or unsampled failure", "anchors": ["ebsdtorch/s2_and_so3/laue_fz_ori.py:ori_to_fz_laue", "ebsdtorch/s2_and_so3/laue_fz_ori.py:ori_in_fz_laue"]}
{"id": "C11", "title": "Disorientation angle is a symmetry-invariant pseudo-metric", "statement": "disori_angle_laue(q1,q2,id1,id2) is unchanged when either orientation is replaced by a symmetric equivalent or negated, symmetric in the pair, and zero exactly for symmetric equivalents of the same group. It obeys the triangle inequality (same group; with two groups through an intermediate orientation without symmetry), and rotating one orientation by an angle moves it by at most that angle.", "quantifier": "all pairs of unit quaternions, all id pairs, all group elements", "why_tests_cant": "the inputs form a continuum; sampling quaternions cannot rule out a measure-zero or unsampled failure", "anchors": ["ebsdtorch/s2_and_so3/laue_fz_ori.py:disori_angle_laue", "ebsdtorch/s2_and_so3/laue_fz_ori.py:disorientation", "ebsdtorch/s2_and_so3/laue_fz_misori.py:disori_angle_laue"]}
{"id": "C12", "title": "FZ sampling only returns FZ members and loses none", "statement": "sample_ori_fz_laue returns exactly the grid quaternions that satisfy ori_in_fz_laue, whatever permutation is drawn.", "quantifier": "all grids, ids and permutations", "why_tests_cant": "the random permutation ranges over n! outcomes", "anchors": ["ebsdtorch/s2_and_so3/laue_fz_ori.py:sample_ori_fz_laue", "ebsdtorch/s2_and_so3/laue_fz_ori.py:sample_ori_fz_laue_angle"]}
{"id": "C13", "title": "Quaternion to matrix gives rotation matrices", "statement": "qu2om of a unit quaternion is orthogonal with determinant +1, acts on vectors as qu_apply, is multiplicative, and is the same for q and -q.", "quantifier": "all unit quaternions", "why_tests_cant": "the inputs form a continuum; sampling quaternions cannot rule out a measure-zero or unsampled failure", "anchors": ["ebsdtorch/s2_and_so3/orientations.py:qu2om", "ebsdtorch/s2_and_so3/quaternions.py:qu_apply"]}
{"id": "C14", "title": "Matrix to quaternion inverts quaternion to matrix", "statement": "om2qu(qu2om(q)) = q for every unit quaternion q with positive scalar part, and is +-q for every unit quaternion.", "quantifier": "all unit quaternions, including 180 degree rotations", "why_tests_cant": "the failing set (180 degree rotations with axes of mixed sign) has measure zero", "anchors": ["ebsdtorch/s2_and_so3/orientations.py:om2qu", "ebsdtorch/s2_and_so3/orientations.py:qu2om"]}
{"id": "C15", "title": "Zhou 6D representation is a retraction onto rotations", "statement": "zh2om maps every linearly independent pair of vectors to a matrix with orthonormal rows and determinant +1, and zh2om(om2zh(R))=R for every rotation matrix R.", "quantifier": "all independent pairs / all rotation matrices", "why_tests_cant": "the inputs form a continuum; sampling quaternions cannot rule out a measure-zero or unsampled failure", "anchors": ["ebsdtorch/s2_and_so3/orientations.py:zh2om", "ebsdtorch/s2_and_so3/orientations.py:om2zh"]}
{"id": "C16", "title": "Axis-angle and quaternion conversions are consistent", "statement": "ax2qu of a unit axis and any angle is a unit quaternion that fixes the axis; qu2ax(ax2qu(n,w)) = (n,w) for w in (0,pi); qu2ax describes the same rotation as q.", "quantifier": "all axes, angles and unit quaternions", "why_tests_cant": "the inputs form a continuum; sampling quaternions cannot rule out a measure-zero or unsampled failure", "anchors": ["ebsdtorch/s2_and_so3/orientations.py:ax2qu", "ebsdtorch/s2_and_so3/orientations.py:qu2ax"]}
{"id": "C17", "title": "Rodrigues and axis-angle conversions are inverse", "statement": "ro2ax(ax2ro(n,w)) = (n,w) for unit n and 0<w<pi.", "quantifier": "all unit axes and angles", "why_tests_cant": "the inputs form a continuum; sampling quaternions cannot rule out a measure-zero or unsampled failure", "anchors": ["ebsdtorch/s2_and_so3/orientations.py:ax2ro", "ebsdtorch/s2_and_so3/orientations.py:ro2ax"]}
{"id": "C18", "title": "Axis-angle to matrix is Rodrigues' formula", "statement": "ax2om(n,w) is orthogonal with determinant one for every unit axis when the angle is above the small-angle switch, and equals qu2om(ax2qu(n,w)).", "quantifier": "all unit axes and angles", "why_tests_cant": "the inputs form a continuum; sampling quaternions cannot rule out a measure-zero or unsampled failure", "anchors": ["ebsdtorch/s2_and_so3/orientations.py:ax2om", "ebsdtorch/s2_and_so3/orientations.py:ax2qu", "ebsdtorch/s2_and_so3/orientations.py:qu2om"]}
{"id": "C19", "title": "Bunge Euler angles to quaternion", "statement": "bu2qu returns a unit quaternion with non-negative scalar part which is +- the product of the three elementary rotations about z, x, z, and depends on the angles only modulo 2 pi.", "quantifier": "all real Euler triples", "why_tests_cant": "the inputs form a continuum; sampling quaternions cannot rule out a measure-zero or unsampled failure", "anchors": ["ebsdtorch/s2_and_so3/orientations.py:bu2qu", "ebsdtorch/s2_and_so3/orientations.py:qu2bu"]}
{"id": "C20", "title": "Square Lambert projection of the sphere is inverted", "statement": "inv_rosca_lambert(rosca_lambert(v)) = v for unit vectors of the upper hemisphere (up to the pole), and rosca_lambert lands in [-1,1]^2.", "quantifier": "all unit vectors", "why_tests_cant": "the inputs form a continuum; sampling quaternions cannot rule out a measure-zero or unsampled failure", "anchors": ["ebsdtorch/s2_and_so3/sphere.py:rosca_lambert", "ebsdtorch/s2_and_so3/sphere.py:inv_rosca_lambert"]}
{"id": "C21", "title": "Side-by-side projection separates hemispheres", "statement": "rosca_lambert_side_by_side places z>=0 points in the left half [-1,0]x[-1,1] and z<0 points in the right half [0,1]x[-1,1].", "quantifier": "all unit vectors", "why_tests_cant": "the inputs form a continuum; sampling quaternions cannot rule out a measure-zero or unsampled failure", "anchors": ["ebsdtorch/s2_and_so3/sphere.py:rosca_lambert_side_by_side"]}
{"id": "C22", "title": "Spherical coordinates round trip", "statement": "theta_phi_to_xyz always returns a unit vector and xyz_to_theta_phi inverts it on the principal domain.", "quantifier": "all angles", "why_tests_cant": "the inputs form a continuum; sampling quaternions cannot rule out a measure-zero or unsampled failure", "anchors": ["ebsdtorch/s2_and_so3/sphere.py:theta_phi_to_xyz", "ebsdtorch/s2_and_so3/sphere.py:xyz_to_theta_phi"]}
{"id": "C23", "title": "Exponential map lands in SE(3)", "statement": "Above the small-angle switch the rotation block of se3_exp_map_om is orthogonal with determinant one, equals the unit quaternion returned by se3_exp_map_quat, and the last row is (0,0,0,1).", "quantifier": "all twist vectors", "why_tests_cant": "the inputs form a continuum; sampling quaternions cannot rule out a measure-zero or unsampled failure", "anchors": ["ebsdtorch/lie_algebra/se3.py:w_exp", "ebsdtorch/lie_algebra/se3.py:se3_exp_map_om", "ebsdtorch/lie_algebra/se3.py:se3_exp_map_quat"]}
{"id": "C24", "title": "Left Jacobian and its closed-form inverse", "statement": "w_to_v(w) and w_to_v_inv(w) are inverse matrices above the small-angle switch and away from non-zero multiples of 2 pi, and skew(w)v = w x v.", "quantifier": "all rotation vectors with angle in (0.05, 2 pi)", "why_tests_cant": "the inputs form a continuum; sampling quaternions cannot rule out a measure-zero or unsampled failure", "anchors": ["ebsdtorch/lie_algebra/se3.py:w_to_v", "ebsdtorch/lie_algebra/se3.py:w_to_v_inv", "ebsdtorch/lie_algebra/se3.py:skew"]}
{"id": "C25", "title": "SE(3) logarithm inverts the exponential", "statement": "se3_log_map_om(se3_exp_map_om(v)) = v for rotation angles between the switch and pi.", "quantifier": "all twists with rotation angle in (0.05,pi)", "why_tests_cant": "the inputs form a continuum; sampling quaternions cannot rule out a measure-zero or unsampled failure", "anchors": ["ebsdtorch/lie_algebra/se3.py:se3_log_map_om", "ebsdtorch/lie_algebra/se3.py:se3_exp_map_om", "ebsdtorch/lie_algebra/se3.py:se3_log_map_split"]}
{"id": "C26", "title": "Bruker geometry round trip", "statement": "bruker_geometry_from_SE3(bruker_geometry_to_SE3(pc,tilts)) returns the same pattern centre and tilt angles.", "quantifier": "all pattern centres, tilt angles and detector shapes", "why_tests_cant": "the inputs form a continuum; sampling quaternions cannot rule out a measure-zero or unsampled failure", "anchors": ["ebsdtorch/ebsd/geometry.py:bruker_geometry_to_SE3", "ebsdtorch/ebsd/geometry.py:bruker_geometry_from_SE3"]}
{"id": "C27", "title": "Detector/sample projection round trip", "statement": "backproject2detector(project2sample(p,scan),scan) = p for every detector coordinate and scan position, whatever the current geometry parameters.", "quantifier": "all SE(3) states, detector pixels and scan coordinates", "why_tests_cant": "the inputs form a continuum; sampling quaternions cannot rule out a measure-zero or unsampled failure", "anchors": ["ebsdtorch/ebsd/geometry.py:EBSDGeometry.project2sample", "ebsdtorch/ebsd/geometry.py:EBSDGeometry.backproject2detector"]}
{"id": "C28", "title": "Frozen geometry parameters stay frozen", "statement": "A component whose mask is 0 contributes nothing to get_detector2sample, and set_optimizable_se3_params only changes which components are live, for every sequence of parameter updates.", "quantifier": "all call histories", "why_tests_cant": "the history of optimiser updates and mask changes is unbounded", "anchors": ["ebsdtorch/ebsd/geometry.py:EBSDGeometry.set_optimizable_se3_params", "ebsdtorch/ebsd/geometry.py:EBSDGeometry.get_detector2sample"]}
{"id": "C29", "title": "Binned pixel coordinates are bin centres", "statement": "get_coords_sample_frame with binning b returns the centres of the b x b blocks of pixels and rejects shapes not divisible by b.", "quantifier": "all detector shapes and binning factors", "why_tests_cant": "all sizes must be covered", "anchors": ["ebsdtorch/ebsd/geometry.py:EBSDGeometry.get_coords_sample_frame"]}
{"id": "C30", "title": "Chunked k-NN equals brute force", "statement": "After all data chunks have been set and queried, ChunkedKNN.retrieve_topk returns, for each query, the k best entries over the whole data set with their global indices, independent of the chunk sizes and of whether queries were sent by query_all or query_chunk.", "quantifier": "all data sets, chunkings, k, query schedules", "why_tests_cant": "the chunking/schedule space is unbounded", "anchors": ["ebsdtorch/utils/knn.py:ChunkedKNN", "ebsdtorch/utils/knn.py:knn_batch"]}
{"id": "C31", "title": "k-NN indices are global and valid", "statement": "Every retrieved index is a valid index into the concatenated data set, and the reported distance is the distance to that very row.", "quantifier": "all chunk schedules", "why_tests_cant": "the chunking/schedule space is unbounded", "anchors": ["ebsdtorch/utils/knn.py:ChunkedKNN.set_data_chunk", "ebsdtorch/utils/knn.py:ChunkedKNN.query_chunk"]}
{"id": "C32", "title": "Online covariance is chunking invariant", "statement": "After any sequence of batches OnlineCovMatrix holds the exact mean and the exact sample covariance of all observations seen, independent of how they were batched.", "quantifier": "all data and all ways of splitting it into batches", "why_tests_cant": "unbounded histories", "anchors": ["ebsdtorch/utils/pca_covmat.py:OnlineCovMatrix", "ebsdtorch/utils/pca_covmat.py:update_covmat"]}
{"id": "C33", "title": "Factorisation multiplies back", "statement": "Whenever FactorECM returns a list its product is N, it is sorted, and for N < 2^16 every entry is prime; this holds for every random choice of curves.", "quantifier": "all N >= 1 and all random tapes", "why_tests_cant": "random tape is unbounded", "anchors": ["ebsdtorch/utils/factorize.py:FactorECM"]}
{"id": "C34", "title": "nearly_square_factors splits n", "statement": "nearly_square_factors(n) returns (a,b) with a*b = n whenever it returns.", "quantifier": "all n and all random tapes", "why_tests_cant": "unbounded inputs", "anchors": ["ebsdtorch/utils/factorize.py:nearly_square_factors"]}
{"id": "C35", "title": "Space group to Laue class", "statement": "space_group_to_laue returns the Laue class of International Tables for every space group number 1..230 and rejects all other integers.", "quantifier": "all integers", "why_tests_cant": "the claim is about the whole domain and about exact algebra; tests compare a handful of values in floating point", "anchors": ["ebsdtorch/utils/symmetry_classes.py:space_group_to_laue"]}
{"id": "C36", "title": "Point group to Laue class", "statement": "point_group_to_laue maps every one of the 32 crystallographic point groups to its Laue class and rejects any other string.", "quantifier": "all strings", "why_tests_cant": "the claim is about the whole domain and about exact algebra; tests compare a handful of values in floating point", "anchors": ["ebsdtorch/utils/symmetry_classes.py:point_group_to_laue"]}
{"id": "C37", "title": "Joint histogram bins are faithful", "statement": "In the binned mutual-information functions two pixel pairs are counted in the same joint bin exactly when both their individual bins agree, and the joint counts sum to the number of pixels.", "quantifier": "all bin counts and images", "why_tests_cant": "all bin counts", "anchors": ["ebsdtorch/utils/mutual_information.py:mutual_information", "ebsdtorch/utils/mutual_information.py:binned_nmi", "ebsdtorch/utils/mutual_information.py:batch_binned_nmi"]}
{"id": "C38", "title": "CLAHE histogram clipping conserves mass", "statement": "For every tile the clipped and redistributed histogram has total mass equal to the number of pixels of the tile and each look-up table is non-decreasing with values within range.", "quantifier": "all histograms, clip limits and bin counts", "why_tests_cant": "all histograms", "anchors": ["ebsdtorch/preprocessing/clahe.py:clahe_grayscale"]}
{"id": "C39", "title": "NLPAR is a convex average of in-bounds neighbours", "statement": "nlpar output at each scan point is a weighted average, with non-negative weights summing to one, of patterns inside the search window that lie on the scan, and pixels outside the scan never contribute.", "quantifier": "all scan shapes, radii and patterns", "why_tests_cant": "unbounded grid sizes and boundary cases", "anchors": ["ebsdtorch/preprocessing/nlpar.py:nlpar"]}
{"id": "C40", "title": "Radial mask is a disc", "statement": "get_radial_mask is True exactly on the pixels strictly closer to the centre than the radius.", "quantifier": "all shapes, radii and centres", "why_tests_cant": "all sizes", "anchors": ["ebsdtorch/preprocessing/radial_mask.py:get_radial_mask"]}
{"id": "C41", "title": "Pattern normalisation range", "statement": "normalize_per_pattern maps each pattern affinely and increasingly into [0,1) with minimum 0, without changing any other pattern.", "quantifier": "all pattern stacks", "why_tests_cant": "the inputs form a continuum; sampling quaternions cannot rule out a measure-zero or unsampled failure", "anchors": ["ebsdtorch/ebsd/experiment_pats.py:ExperimentPatterns.normalize_per_pattern"]}
{"id": "C42", "title": "ExperimentPatterns read-your-writes", "statement": "After any sequence of setter calls, get_orientations/get_spatial_coords/get_inv_f_matrix(indices) returns for each index the last value written to it, and other indices are unaffected.", "quantifier": "all call histories and index lists", "why_tests_cant": "unbounded histories", "anchors": ["ebsdtorch/ebsd/experiment_pats.py:ExperimentPatterns.set_orientations", "ebsdtorch/ebsd/experiment_pats.py:ExperimentPatterns.get_orientations", "ebsdtorch/ebsd/experiment_pats.py:ExperimentPatterns.set_spatial_coords", "ebsdtorch/ebsd/experiment_pats.py:ExperimentPatterns.get_spatial_coords"]}
{"id": "C43", "title": "Combined indexing result takes the best phase", "statement": "combine_indexing_results assigns to each pattern the phase and orientation with the best stored metric over all phases.", "quantifier": "all phases, metrics and orders of insertion", "why_tests_cant": "unbounded histories", "anchors": ["ebsdtorch/ebsd/experiment_pats.py:ExperimentPatterns.combine_indexing_results", "ebsdtorch/ebsd/experiment_pats.py:ExperimentPatterns.set_raw_indexing_results"]}
{"id": "C44", "title": "Master pattern interpolation uses the current pattern", "statement": "MasterPattern.interpolate always interpolates the current (normalised, binned by the requested factor) pattern, whatever calls preceded it; the cached factor pairs never change a result.", "quantifier": "all call histories", "why_tests_cant": "unbounded histories", "anchors": ["ebsdtorch/ebsd/master_pattern.py:MasterPattern.interpolate", "ebsdtorch/ebsd/master_pattern.py:MasterPattern.normalize", "ebsdtorch/ebsd/master_pattern.py:MasterPattern.bin"]}
{"id": "C45", "title": "Dictionary indexing returns the best match", "statement": "dictionary_index_orientations stores for each pattern the dictionary orientations of the k best metric values, independent of the dictionary chunk size and of the experiment chunk size.", "quantifier": "all dictionaries, chunk sizes and pattern sets", "why_tests_cant": "unbounded schedules", "anchors": ["ebsdtorch/ebsd/indexing.py:dictionary_index_orientations"]}
{"id": "C46", "title": "PCA projection keeps the requested components", "statement": "pca_dictionary_index_orientations projects on the n_pca_components leading eigenvectors.", "quantifier": "all component counts and pattern sizes", "why_tests_cant": "all sizes", "anchors": ["ebsdtorch/ebsd/indexing.py:pca_dictionary_index_orientations"]}
{"id": "C47", "title": "Wigner table layout is a bijection", "statement": "index_from_coords is a bijection between triples l>=m>=n>=0 with l<=L and 0..(L+1)(L+2)(L+3)/6-1, increasing in lexicographic order, and coords_from_index inverts it.", "quantifier": "all degrees", "why_tests_cant": "unbounded degrees", "anchors": ["ebsdtorch/harmonics/wigner_d_xnum.py:index_from_coords", "ebsdtorch/harmonics/wigner_d_logspace.py:index_from_coords", "ebsdtorch/harmonics/wigner_d_logspace.py:coords_from_index"]}
{"id": "C48", "title": "X-numbers represent the value they encode", "statement": "xnum_norm does not change the represented value x*2^(460 i); xnum_sum represents a*x+b*y exactly when the exponents differ by at most one; xnum_to_fp returns the represented value.", "quantifier": "all mantissas and exponents", "why_tests_cant": "unbounded exponents", "anchors": ["ebsdtorch/harmonics/wigner_d_xnum.py:xnum_norm", "ebsdtorch/harmonics/wigner_d_xnum.py:xnum_sum", "ebsdtorch/harmonics/wigner_d_xnum.py:xnum_to_fp"]}
{"id": "C49", "title": "The Wigner recursion fills the whole table", "statement": "The vectorised recursion writes every entry l>=m>=n>=0, l<=L of the (initially uninitialised) table, reads only entries already written, and the final entry is the value of the standard three-term recurrence.", "quantifier": "all degrees L and all angles", "why_tests_cant": "unbounded degrees; uninitialised memory may contain anything", "anchors": ["ebsdtorch/harmonics/wigner_d_xnum.py:wigner_d_xnum", "ebsdtorch/harmonics/wigner_d_logspace.py:wigner_d_lt_half_pi"]}
{"id": "C50", "title": "Signed log-sum-exp", "statement": "signedlogsumexp returns the logarithm of the magnitude and the sign of the signed sum of exponentials.", "quantifier": "all real inputs and signs", "why_tests_cant": "the inputs form a continuum; sampling quaternions cannot rule out a measure-zero or unsampled failure", "anchors": ["ebsdtorch/harmonics/wigner_d_logspace.py:signedlogsumexp"]}
{"id": "C51", "title": "Monte Carlo histogram counts every valid electron", "statement": "The mass of the accumulator returned by bse_sim_mc equals the number of back-scattered electrons whose exit bins are valid.", "quantifier": "all random tapes and electron counts", "why_tests_cant": "random tape is unbounded; index collisions depend on it", "anchors": ["ebsdtorch/simulation/monte_carlo.py:bse_sim_mc"]}
{"id": "C52", "title": "Scattering keeps directions on the unit sphere", "statement": "The direction update of bse_sim_mc yields a unit vector making the sampled polar angle with the old direction.", "quantifier": "all directions and sampled angles", "why_tests_cant": "the inputs form a continuum; sampling quaternions cannot rule out a measure-zero or unsampled failure", "anchors": ["ebsdtorch/simulation/monte_carlo.py:bse_sim_mc"]}
{"id": "C53", "title": "Structure matrix realises the metric tensor", "statement": "For every cell, calc_dot in direct space equals the Cartesian dot product of the transformed vectors (dsm^T dsm = dmt), and the volume is the determinant of dsm.", "quantifier": "all lattice parameters", "why_tests_cant": "the inputs form a continuum; sampling quaternions cannot rule out a measure-zero or unsampled failure", "anchors": ["ebsdtorch/crystallography/unit_cell.py:Cell.__init__", "ebsdtorch/crystallography/unit_cell.py:Cell.transform_space", "ebsdtorch/crystallography/unit_cell.py:Cell.calc_dot"]}
{"id": "C54", "title": "transform_space round trips", "statement": "transform_space from any space to any other and back is the identity.", "quantifier": "all cells, vectors and pairs of spaces", "why_tests_cant": "the inputs form a continuum; sampling quaternions cannot rule out a measure-zero or unsampled failure", "anchors": ["ebsdtorch/crystallography/unit_cell.py:Cell.transform_space"]}
{"id": "C55", "title": "Crystal system, point group and Laue group of a cell", "statement": "Cell assigns to every space group its International Tables crystal system and point group.", "quantifier": "all 230 space groups", "why_tests_cant": "the claim is about the whole domain and about exact algebra; tests compare a handful of values in floating point", "anchors": ["ebsdtorch/crystallography/unit_cell.py:Cell.__init__", "ebsdtorch/crystallography/groups.py:sg_pg_beg"]}
{"id": "C56", "title": "Reflection list is complete", "statement": "get_reflections(dmin) contains exactly the non-zero centring-allowed hkl with d-spacing above dmin.", "quantifier": "all cells, dmin", "why_tests_cant": "the inputs form a continuum; sampling quaternions cannot rule out a measure-zero or unsampled failure", "anchors": ["ebsdtorch/crystallography/unit_cell.py:Cell.get_reflections", "ebsdtorch/crystallography/unit_cell.py:Cell.is_g_allowed"]}
{"id": "C57", "title": "Centring extinction rule", "statement": "is_g_allowed agrees with the vanishing of the lattice-centring structure factor for every integer hkl, including negative ones.", "quantifier": "all integer hkl and centring types", "why_tests_cant": "infinitely many hkl", "anchors": ["ebsdtorch/crystallography/unit_cell.py:Cell.is_g_allowed"]}
{"id": "C58", "title": "Space-group closure", "statement": "sg_operators returns a set closed under composition modulo lattice translations, of the tabulated order, for every space group.", "quantifier": "all 230 space groups and all pairs of operators", "why_tests_cant": "the claim is about the whole domain and about exact algebra; tests compare a handful of values in floating point", "anchors": ["ebsdtorch/crystallography/groups.py:sg_operators"]}
{"id": "C59", "title": "Simpson integration is exact on quadratics", "statement": "simpson_composite integrates every polynomial of degree at most two exactly on every strictly increasing grid with an even number of intervals or at least three intervals.", "quantifier": "all grids, all quadratics", "why_tests_cant": "unbounded grids", "anchors": ["ebsdtorch/crystallography/scattering_factors/scattering_factors_LVD_TCB.py:simpson_composite"]}
{"id": "C60", "title": "Histogram interpolation interpolates", "statement": "_interp and _interpquad reproduce the samples at the sample points, are exact on linear (resp. quadratic) data, and clamp outside the range in const mode.", "quantifier": "all grids and query points", "why_tests_cant": "unbounded grids", "anchors": ["ebsdtorch/crystallography/ebsd_mc.py:MonteCarloSimulator._interp", "ebsdtorch/crystallography/ebsd_mc.py:MonteCarloSimulator._interpquad"]}
{"id": "C61", "title": "Discrete cosine/sine matrices are orthogonal", "statement": "idctMatrix(N) and idstMatrix(N) are orthogonal matrices for every N, so the inverse transforms really invert.", "quantifier": "all N", "why_tests_cant": "unbounded N", "anchors": ["ebsdtorch/harmonics/sht.py:idctMatrix", "ebsdtorch/harmonics/sht.py:idstMatrix"]}
{"id": "C62", "title": "Uniform SO(3) samplers return unit quaternions", "statement": "so3_fibonacci and so3_uniform_quat return unit quaternions, and so3_cubochoric_grid returns edge_length^3 points inside the cubochoric cube.", "quantifier": "all n, all random draws", "why_tests_cant": "unbounded n", "anchors": ["ebsdtorch/s2_and_so3/sampling.py:so3_fibonacci", "ebsdtorch/s2_and_so3/sampling.py:so3_uniform_quat", "ebsdtorch/s2_and_so3/sampling.py:so3_cubochoric_grid"]}
{"id": "C63", "title": "Progress bar is transparent", "statement": "progressbar yields exactly the items of its iterable in order.", "quantifier": "all lists", "why_tests_cant": "unbounded lengths", "anchors": ["ebsdtorch/utils/progressbar.py:progressbar"]}
{"id": "C64", "title": "Gaussian blur keeps the image shape", "statement": "GaussianBlur2d returns an image of the shape of its input and its kernel sums to one.", "quantifier": "all image sizes and kernel sizes", "why_tests_cant": "all sizes", "anchors": ["ebsdtorch/preprocessing/resampling.py:GaussianBlur2d"]}
{"id": "C65", "title": "Local refinement grid", "statement": "get_local_orientation_grid returns (2r+1)^3 points with axial_grid_dimension 3, symmetric about and containing the identity; the biaxial/uniaxial variants keep exactly the points with at least one/two zero coordinates.", "quantifier": "all radii and semi-edges", "why_tests_cant": "unbounded radii", "anchors": ["ebsdtorch/ebsd/refining.py:get_local_orientation_grid"]}
{"id": "C66", "title": "Slerp interpolates on the unit sphere", "statement": "qu_slerp(a,b,t) of two non-parallel quaternions is a unit quaternion, equals normalised a at t=0 and normalised b at t=1, and the result has the batch shape of the inputs.", "quantifier": "all pairs of quaternions, all t, all batch sizes", "why_tests_cant": "continuum of quaternions and parameters; batch sizes unbounded", "anchors": ["ebsdtorch/s2_and_so3/quaternions.py:qu_slerp"]}
{"id": "C67", "title": "Cubed RFZ coordinates are inverted", "statement": "rfz_to_cube(cube_to_rfz(c)) = c and conversely for every non-zero c of the cubic-high group, and cube_to_rfz maps the cube of half-edge sqrt(2)-1 into the Rodrigues fundamental zone.", "quantifier": "all 3D points", "why_tests_cant": "continuum of inputs and a piecewise definition", "anchors": ["ebsdtorch/s2_and_so3/laue_fz_ori.py:cube_to_rfz", "ebsdtorch/s2_and_so3/laue_fz_ori.py:rfz_to_cube"]}
{"id": "C68", "title": "The Monte Carlo loop terminates", "statement": "For every stream of random numbers and at least one electron, bse_sim_mc stops after at most (n_max_steps+1)*(n_simulations_max+n_electrons) iterations; with zero electrons and positive limits it never stops.", "quantifier": "all parameters, all random streams", "why_tests_cant": "termination must hold for every random stream; a test run only samples a few", "anchors": ["ebsdtorch/simulation/monte_carlo.py:bse_sim_mc"]}
{"id": "C69", "title": "Monte Carlo loop invariants", "statement": "At every iteration of bse_sim_mc, for every random stream, each electron has a unit direction, non-negative depth and age at most n_max_steps, every histogram index is within the accumulator shape (no IndexError), an exiting electron has a non-zero vertical direction component, and the yield never exceeds the number of finished trajectories.", "quantifier": "all parameters, all random streams, all iterations", "why_tests_cant": "an invariant of an unbounded random execution", "anchors": ["ebsdtorch/simulation/monte_carlo.py:bse_sim_mc", "ebsdtorch/simulation/monte_carlo.py:rosca_lambert"]}
{"id": "C70", "title": "Wigner tables contain Wigner's small d", "statement": "For every degree L and every documented angle, entry (l,m,n) of the table returned by wigner_d_lt_half_pi, wigner_d_eq_half_pi, wigner_d_gt_half_pi and wigner_d_xnum is Wigner's small d function (explicit factorial sum) of the angle.", "quantifier": "all degrees L, all l>=m>=n>=0, all angles", "why_tests_cant": "unbounded degrees and a continuum of angles", "anchors": ["ebsdtorch/harmonics/wigner_d_logspace.py:wigner_d_lt_half_pi", "ebsdtorch/harmonics/wigner_d_logspace.py:wigner_d_eq_half_pi", "ebsdtorch/harmonics/wigner_d_logspace.py:wigner_d_gt_half_pi", "ebsdtorch/harmonics/wigner_d_xnum.py:wigner_d_xnum"]}
{"id": "C71", "title": "Wigner table readers cover all signed orders", "statement": "read_lmn_wigner_d_half_pi_table and retrieve_wigner_d return, for every degree and every pair of signed orders with |m|,|n| <= l, Wigner's small d for these orders (transposed with swap_mn), although the table stores only m >= n >= 0.", "quantifier": "all degrees and signed orders", "why_tests_cant": "unbounded degrees and orders", "anchors": ["ebsdtorch/harmonics/wigner_d_logspace.py:read_lmn_wigner_d_half_pi_table", "ebsdtorch/harmonics/wigner_d_xnum.py:retrieve_wigner_d"]}
{"id": "C72", "title": "Modular arithmetic of the factorisation", "statement": "The modular inverse used by FactorECM is the inverse modulo n in [0, n) exactly when the number is coprime to n and raises otherwise; adding and multiplying points keeps them on the curve y^2 = x^3 + A x + B modulo N; whenever a stage raises, the common factor found divides N and exceeds 1, so the recursion makes progress.", "quantifier": "every integer, every positive modulus, every curve and point on it, every multiplier, every stream of random numbers", "why_tests_cant": "the inputs are unbounded integers and random curves; a wrong slope only makes factorisation slower or non-terminating", "anchors": ["ebsdtorch/utils/factorize.py:modular_inverse", "ebsdtorch/utils/factorize.py:elliptic_curve_add", "ebsdtorch/utils/factorize.py:elliptic_curve_mul", "ebsdtorch/utils/factorize.py:factor_ecm"]}
{"id": "C73", "title": "Binning is block averaging", "statement": "Binning a master pattern or retrieving experimental patterns with binning factor b gives the image of means of b by b blocks, conserves the mean intensity when b divides the image size, and never leaves the intensity range; retrieval without binning returns the stored patterns.", "quantifier": "every image size, content, binning factor and index list", "why_tests_cant": "all sizes and contents", "anchors": ["ebsdtorch/ebsd/master_pattern.py:bin", "ebsdtorch/ebsd/experiment_pats.py:get_patterns"]}
{"id": "C74", "title": "Background subtraction centres every pixel", "statement": "After subtract_overall_background every pixel has zero mean over the patterns, differences between patterns are unchanged, and repeating the call changes nothing.", "quantifier": "every number and size of patterns and every content", "why_tests_cant": "all sizes and contents", "anchors": ["ebsdtorch/ebsd/experiment_pats.py:subtract_overall_background"]}
{"id": "C75", "title": "Indices per phase partition the scan", "statement": "get_indices_per_phase returns one list per phase; each pattern position is in exactly the list of its phase, in increasing order.", "quantifier": "every phase map", "why_tests_cant": "all phase maps, including phases that occur once or not at all", "anchors": ["ebsdtorch/ebsd/experiment_pats.py:get_indices_per_phase"]}
{"id": "C76", "title": "Space-group operators have the right lattice and point group", "statement": "The pure translations among the operators returned by sg_operators are exactly the centring vectors of the lattice letter in the space-group symbol, and the operators contain each kind of rotation, mirror and inversion as often as the International Tables point group of that space group does.", "quantifier": "all 230 space groups", "why_tests_cant": "a table of 230 generator strings; an error in one letter changes one group only", "anchors": ["ebsdtorch/crystallography/groups.py:sg_operators"]}
{"id": "C77", "title": "Cell.calc_cross is the geometric cross product", "statement": "calc_cross with scale_by_volume returns, in the requested output space, the components of the geometric cross product of the two vectors.", "quantifier": "all cells, pairs of vectors, input and output spaces", "why_tests_cant": "the inputs form a continuum; errors vanish in cells with right angles", "anchors": ["ebsdtorch/crystallography/unit_cell.py:Cell.calc_cross"]}
{"id": "C78", "title": "Lengths and angles are Euclidean", "statement": "calc_length and calc_angle, in every space, are the Euclidean length of and angle between the vectors with those components; calc_angle lies in [0, pi] and does not depend on the (positive) lengths.", "quantifier": "all cells, vectors and spaces", "why_tests_cant": "the inputs form a continuum", "anchors": ["ebsdtorch/crystallography/unit_cell.py:Cell.calc_length", "ebsdtorch/crystallography/unit_cell.py:Cell.calc_angle"]}
{"id": "C79", "title": "Composition numbers of a cell", "statement": "The z2 percentages sum to 100 and are non-negative, the average atomic number lies between the smallest and the largest atomic number, and the density is mass per volume.", "quantifier": "all compositions and occupations", "why_tests_cant": "all compositions", "anchors": ["ebsdtorch/crystallography/unit_cell.py:Cell.calc_density", "ebsdtorch/crystallography/unit_cell.py:Cell.z2_percent"]}
{"id": "C80", "title": "Rhombohedral to hexagonal conversion", "statement": "Converting a rhombohedral cell to the hexagonal setting gives the textbook cell with three times the volume.", "quantifier": "all rhombohedral edge lengths and angles", "why_tests_cant": "the inputs form a continuum", "anchors": ["ebsdtorch/crystallography/unit_cell.py:Cell.convert_from_R_to_H"]}
{"id": "C81", "title": "Difference table contains all differences", "statement": "Every difference of two distinct reflections of get_reflections(dmin) is in the difference table for the same dmin, which does not contain (0,0,0).", "quantifier": "all cells, space groups, dmin", "why_tests_cant": "infinitely many cells and tables", "anchors": ["ebsdtorch/crystallography/unit_cell.py:Cell.get_reflections"]}
{"id": "C82", "title": "Electrons lose energy", "statement": "In bse_sim_mc no electron gains energy in a step.", "quantifier": "all materials, electron states and random draws", "why_tests_cant": "continuum of states, including those reached only after many steps", "anchors": ["ebsdtorch/simulation/monte_carlo.py:bse_sim_mc"]}
{"id": "C83", "title": "Spherical quadrature is exact", "statement": "The Driscoll-Healy weights integrate every polynomial in cos(theta) of degree less than 2B exactly over the sphere's polar angle when evaluated at the 2B sampled angles, and sum to the measure of the full range.", "quantifier": "all bandwidths B >= 1 and all polynomials of degree < 2B", "why_tests_cant": "infinitely many bandwidths and polynomials", "anchors": ["ebsdtorch/harmonics/sht.py:dltWeightsDH"]}
{"id": "C84", "title": "Cubochoric and homochoric maps are mutually inverse", "statement": "cu2ho and ho2cu are inverse to each other in both directions; cu2ho keeps the sign and magnitude order of the coordinates, sends the cube surface of half-edge r to the sphere of radius r times the constant (6/pi)^(1/3)-law used by the library, and so maps the cubochoric cube exactly onto the homochoric ball.", "quantifier": "all points of the cube / ball (all real coordinate triples), every way argsort may break ties", "why_tests_cant": "continuum of inputs, with sector boundaries and ties of measure zero", "anchors": ["ebsdtorch/s2_and_so3/orientations.py:cu2ho", "ebsdtorch/s2_and_so3/orientations.py:ho2cu"]}
{"id": "C86", "title": "Mutual information scores obey the laws of mutual information", "statement": "The binned mutual-information score of two images is never negative; under every normalisation mode it never exceeds 1 (for 'none' it never exceeds the entropy of either image); swapping the two images does not change it; an image scored against itself gets its own entropy ('none') or exactly 1 (normalised modes, non-constant image); the batch routine scores each pair exactly as the single routine would; mutual_information of a histogram is never negative.", "quantifier": "all images, all bin counts, all normalisation modes, all batch sizes", "why_tests_cant": "an inequality (log-sum / Jensen) over all images and histograms; tests only sample a few images", "anchors": ["ebsdtorch/utils/mutual_information.py:binned_nmi", "ebsdtorch/utils/mutual_information.py:mutual_information", "ebsdtorch/utils/mutual_information.py:batch_binned_nmi"]}
{"id": "C85", "title": "Local grid refinement never loses score", "statement": "orientation_grid_refinement moves each pattern's orientation, in every iteration, to the best-scoring candidate (local grid rotation times current orientation, reduced to the fundamental zone), shrinks the pattern's grid exactly when the middle candidate won, records scores that never decrease and that start no lower than the score of a starting orientation inside the zone, returns orientations inside the zone whose score is the last recorded one, refines every pattern as if it were alone (whatever the batch size), and leaves patterns of other phases untouched.", "quantifier": "all master patterns, detector geometries, experimental patterns, starting orientations, Laue groups, grid sizes and dimensions, shrink factors, iteration counts and batch sizes", "why_tests_cant": "A test runs a few patterns from good starting points; monotonicity and batch independence must hold for every master pattern and every split of the data set.", "anchors": ["ebsdtorch/ebsd/refining.py:orientation_grid_refinement", "ebsdtorch/ebsd/refining.py:get_local_orientation_grid"]}
{"id": "C87", "title": "Gradient refinement keeps only improvements", "statement": "orientation_grad_refinement replaces the stored orientation of a pattern only by one whose normalised cross-correlation with the pattern is higher than that of the stored orientation, stores unit quaternions inside the fundamental zone, and leaves every other orientation unchanged.", "quantifier": "all master patterns, geometries, experimental patterns, starting orientations, Laue groups, numbers of optimiser steps, batch sizes and optimiser trajectories", "why_tests_cant": "Whether the acceptance test keeps improvements must hold for every trajectory of the optimiser and every pattern; a test that only looks at orientations after a good start sees no difference between keeping improvements and never updating.", "anchors": ["ebsdtorch/ebsd/refining.py:orientation_grad_refinement"]}
{"id": "C88", "title": "Directions and the fundamental sector of the sphere", "statement": "For each Laue class id, the acceptance test for the fundamental sector of the sphere (s2_in_fz_laue) accepts at least one symmetry equivalent (group rotations and inversion) of every unit direction, and exactly one when that equivalent lies in the interior of the sector; s2_to_fz_laue therefore returns, for each direction, the unique equivalent direction of the sector, in the input order; the sector samplers return only unit directions of the sector.", "quantifier": "all Laue classes 1..11, both floating point widths, all unit directions and all batches of them, and all target sample counts", "why_tests_cant": "Cover and uniqueness are statements about every point of the sphere; the places where they break (poles, equator, mirror planes, the [001] direction) have measure zero, so random test directions never meet them.", "anchors": ["ebsdtorch/s2_and_so3/laue_fz_s2.py:s2_in_fz_laue", "ebsdtorch/s2_and_so3/laue_fz_s2.py:s2_to_fz_laue", "ebsdtorch/s2_and_so3/laue_fz_s2.py:s2_equiv_laue", "ebsdtorch/s2_and_so3/laue_fz_s2.py:sample_s2_fz_laue_fibonacci", "ebsdtorch/s2_and_so3/laue_fz_s2.py:sample_s2_fz_laue_rosca"]}
{"id": "C89", "title": "Square and hexagon maps to the hemisphere", "statement": "The square maps (square_to_hemisphere, square_to_hemisphere_v2, the k-vector map) agree with each other and with inv_rosca_lambert; they send the closed square bijectively to the closed upper unit hemisphere, are inverted by rosca_lambert, carry the symmetry of the square to that of the sphere and preserve area up to the constant factor pi/2; the hexagon map sends the unit hexagon to unit vectors of the upper hemisphere.", "quantifier": "all points of the square or hexagon, including edges, diagonals and the centre", "why_tests_cant": "Bijectivity, equal area and unit length are statements about a continuum of points; a test grid sees neither the centre's NaN nor whether areas are preserved everywhere.", "anchors": ["ebsdtorch/utils/rosca_lambert.py:square_to_hemisphere", "ebsdtorch/utils/rosca_lambert.py:square_to_hemisphere_v2", "ebsdtorch/utils/rosca_lambert.py:hexagon_to_hemisphere", "ebsdtorch/crystallography/kvectors.py:square_to_hemisphere", "ebsdtorch/crystallography/kvectors.py:hexagon_to_hemisphere"]}
{"id": "C90", "title": "Online PCA keeps independent / orthonormal components", "statement": "After any sequence of batches, KrasulinaPCA keeps its component matrix of full column rank, transform followed by inverse_transform is the identity on the span of the components, the reconstruction of a vector is its best approximation in that span, and get_components returns exactly the stored components; OjaPCA keeps orthonormal components, its transform/inverse_transform round trip is exact on the span, and one step is the documented power step.", "quantifier": "all initial full-rank component matrices, all finite sequences of batches (any batch sizes, any data), all learning rates for which the code's step is defined, all vectors", "why_tests_cant": "Rank loss or loss of orthonormality is a property of the whole history of updates; a finite run on sample data cannot exclude a batch sequence that breaks it.", "anchors": ["ebsdtorch/utils/pca_online.py:KrasulinaPCA.forward", "ebsdtorch/utils/pca_online.py:KrasulinaPCA.transform", "ebsdtorch/utils/pca_online.py:KrasulinaPCA.inverse_transform", "ebsdtorch/utils/pca_online.py:KrasulinaPCA.get_components", "ebsdtorch/utils/pca_online.py:OjaPCA.forward", "ebsdtorch/utils/pca_online.py:OjaPCA.transform", "ebsdtorch/utils/pca_online.py:OjaPCA.inverse_transform"]}
{"id": "C91", "title": "The k-vector grid covers every direction up to symmetry", "statement": "For every space group, kvectors_grid returns directions that meet the point-group orbit of every direction of the full two-hemisphere grid, each row carries the direction of its own grid index, and no index is returned twice.", "quantifier": "all 230 space groups (as Cell stores them), all grid half widths, all grid directions of both hemispheres", "why_tests_cant": "A missing wedge of directions only shows up as silently empty regions of the master pattern for some space groups; establishing cover needs an argument over every orbit for every group and grid size.", "anchors": ["ebsdtorch/crystallography/kvectors.py:kvectors_grid"]}
{"id": "C92", "title": "Excitation errors and electron wavelengths", "statement": "For every cell, reflection and wave vector, the excitation error is the displacement along the beam that brings k+g onto the Ewald sphere up to its own square (|k+g+s k/|k||^2 = |k|^2 + s^2); it is zero exactly when |k+g| = |k| and positive exactly for points inside the sphere; calc_sg and calc_sg_batched agree and are unchanged by symmetries of the metric; calc_lambda is positive, decreasing and satisfies the relativistic relations; wave vectors have length 1/lambda and the requested direction.", "quantifier": "all accepted cells, all reflections g, all wave vectors k with (k+g).k nonzero, all positive voltages, all directions", "why_tests_cant": "A sign or factor error only shows for particular g/k pairs; the identity has to hold for every pair and every (also oblique) cell.", "anchors": ["ebsdtorch/crystallography/diffraction.py:calc_lambda", "ebsdtorch/crystallography/diffraction.py:calc_sg", "ebsdtorch/crystallography/ebsd_master.py:calc_sg_batched", "ebsdtorch/crystallography/ebsd_master.py:ebsd_master_pattern"]}
{"id": "C93", "title": "The structure matrix holds the right Fourier coefficients", "statement": "For every cell, space group, dmin and voltage, each off-diagonal entry of the matrix returned by calc_helper_bloch_formalism is the Fourier coefficient of exactly the difference of its two beams; no entry of the lookup table that was never written is read, no two differences share an entry; the coefficients are the structure factors of the complex atomic factors, and the matrix is Hermitian when these are real; no beam occurs twice.", "quantifier": "all cells, space groups 1-230, dmin, voltages, pairs of beams, scattering factors, contents of uninitialised memory", "why_tests_cant": "An index collision or an unwritten entry yields plausible garbage for particular limits only; uninitialised memory is usually zero in tests.", "anchors": ["ebsdtorch/crystallography/diffraction.py:calc_helper_bloch_formalism", "ebsdtorch/crystallography/diffraction.py:calc_sgh", "ebsdtorch/crystallography/unit_cell.py:Cell.get_reflections"]}
{"id": "C94", "title": "Simulated master pattern", "statement": "For every crystal with non-negative occupancies and Debye-Waller factors and non-negative Monte Carlo weights, all intensities returned by ebsd_master_pattern are non-negative; the result does not depend on k_chunk_size or on a common factor of the weights; the wave function after n depth steps is exp(nA) applied to the incident beam and without absorption its intensities sum to one; the intensity is the textbook Bloch-wave intensity; the depths integrated hold at least 95% of the weight of each energy; several voltages, absorption=False and depth_step are honoured.", "quantifier": "all crystals, scattering factors, voltages, weight tables, dmin, chunk sizes and lists of directions", "why_tests_cant": "Positivity and flux conservation are consequences of positive definiteness and unitarity for every crystal and direction; a finite number of runs cannot establish them, and rounding hides small violations.", "anchors": ["ebsdtorch/crystallography/ebsd_master.py:ebsd_master_pattern", "ebsdtorch/crystallography/diffraction.py:calc_sgh", "ebsdtorch/crystallography/diffraction.py:calc_helper_bloch_formalism"]}
{"id": "C95", "title": "Pattern-centre search", "statement": "spatial_fft_pc_fitter(metric='dot') returns, for every valid input, the grid point (pc_x, pc_y, pc_z) at which the mean over the patterns of the best correlation (over the whole orientation dictionary) of the normalised, zero-padded pattern with the displaced simulation is largest, and for each pattern the orientation attaining it; the result does not depend on the dictionary batch size, on the brightness and contrast of the patterns, or on whether the search was run before on the same tensor; the correlation computed through rfft2/irfft2/fftshift equals the direct sum; the pattern centre reported for a grid point is the one whose simulation was compared there.", "quantifier": "all master patterns, dictionaries, patterns, detector shapes, search ranges, tilts and batch sizes", "why_tests_cant": "Equality with the exhaustive direct search for every pattern, dictionary and batch split is a statement about all inputs; tests on a centred pattern with one batch hide the mirrored sign and the batch-local indices.", "anchors": ["ebsdtorch/ebsd/fitting.py:spatial_fft_pc_fitter", "ebsdtorch/ebsd/fitting.py:get_3D_pixel_coords_with_periphery", "ebsdtorch/ebsd/fitting.py:generate_dictionary_coords"]}
{"id": "C96", "title": "Cross mutual information map", "statement": "cmif returns, for every pair of a destination and a source image, a map of the size of the images whose entry at (y, x) is the mutual information (normalised as requested) of the source with the destination displaced cyclically by (y - h/2, x - w/2), the same number binned_nmi gives for the displaced images; entries are non-negative and never exceed the entropy of either image; a displaced copy of the source reaches the source's entropy at its displacement; the result does not depend on whether the joint histogram is built in chunks or the marginals are precomputed; each entry depends only on its own pair of images; pixels excluded by a mask have no influence; every grey value in [0, 1] is counted.", "quantifier": "all image stacks, sizes, bin counts, chunk sizes, masks and normalisation modes", "why_tests_cant": "Equality of an FFT computation with the directly counted histogram at every displacement, for all images and bin counts; the failing bin counts (9, 17, ...) and batch shapes are easily missed.", "anchors": ["ebsdtorch/utils/mutual_information.py:cmif"]}
{"id": "C97", "title": "Directions for high-resolution EBSD", "statement": "hrebsd_coords returns, for every pattern and detector pixel, the unit vector along F_inverse * R(quaternion) * (pose applied to the pixel), finite for every pixel; it accepts a detector shape exactly when the binning divides both sides and returns rows/b * cols/b directions in the pixel order of EBSDGeometry; a uniform dilatation of the deformation changes nothing; a deformation that is a rotation acts like a change of the quaternion; q and -q agree; masked components of the se(3) vector have no influence; the logarithm of a pose as se(3) vector reproduces that pose.", "quantifier": "all masks, se(3) vectors, quaternions, deformation tensors, detector shapes, binnings and batch sizes", "why_tests_cant": "identities over all deformations, rotations and pixels; a test at the identity deformation cannot distinguish the order of the factors", "anchors": ["ebsdtorch/ebsd/project_hrebsd.py:hrebsd_coords"]}
{"id": "C98", "title": "Equivalent atomic positions", "statement": "For every space group 1-230 and every atom, Cell lists the equivalent positions in the half-open unit cell: exactly the images of the given position under the space group operations modulo lattice translations, each once; the multiplicity times the order of the site symmetry is the order of the group; adding a lattice vector to the position, or moving it to an equivalent origin, does not change the multiplicity.", "quantifier": "all space groups and all real positions", "why_tests_cant": "230 groups times a continuum of positions, special positions of measure zero, and tolerances that only fail at the cell boundary.", "anchors": ["ebsdtorch/crystallography/unit_cell.py:Cell.__init__", "ebsdtorch/crystallography/unit_cell.py:unique_rows"]}
{"id": "C99", "title": "Cell averages and density", "statement": "The average atomic number and atomic weight of a Cell are the means over the atoms in the unit cell, and its density in g/cm^3 is the mass of the cell content divided by the cell volume.", "quantifier": "all lists of atom sites, occupancies, multiplicities and cell volumes", "why_tests_cant": "One-site crystals (the usual test) hide the division by the number of sites; the claim is about every composition.", "anchors": ["ebsdtorch/crystallography/unit_cell.py:Cell.__init__", "ebsdtorch/crystallography/ebsd_mc.py"]}
{"id": "C100", "title": "Second structure matrix of trigonal cells", "statement": "For exactly the trigonal space groups Cell computes a second structure matrix that consists of numbers, describes the same metric tensor as the first and has the same handedness.", "quantifier": "all space groups and all lattice parameters", "why_tests_cant": "Must hold for all lattice angles; at some angles the result is a number, at others NaN.", "anchors": ["ebsdtorch/crystallography/unit_cell.py:Cell.__init__"]}
{"id": "C101", "title": "Inverse spherical harmonic transform is synthesis", "statement": "CSHT.isht (RSHT.isht) of a coefficient tensor is, at every point of the Driscoll-Healy grid returned by grid_DriscollHealy, the value of the band-limited function with those coefficients in the orthonormal spherical harmonics with Condon-Shortley phase (for RSHT: the real function whose coefficients of order m >= 0 are given), up to the documented cut-off of weights below 1e-14.", "quantifier": "all band limits L >= 1, all complex coefficient tensors, all grid points", "why_tests_cant": "Correctness of index tables, signs and normalisation for every (L, l, m); tests use a few L.", "anchors": ["ebsdtorch/harmonics/sht.py:CSHT.isht", "ebsdtorch/harmonics/sht.py:RSHT.isht", "ebsdtorch/harmonics/wigner_d_logspace.py:csht_weights_half_pi"]}
{"id": "C102", "title": "Complex spherical harmonic transform inverts", "statement": "CSHT.fsht of the samples of a band-limited function returns its spherical harmonic coefficients (order m in row m+L-1) and zeros for |m| > l; fsht(isht(c)) returns c; both up to an error proportional to the 1e-14 weight cut-off.", "quantifier": "all band limits, all coefficient tensors", "why_tests_cant": "A statement about a linear map for all L and all inputs.", "anchors": ["ebsdtorch/harmonics/sht.py:CSHT.fsht", "ebsdtorch/harmonics/sht.py:CSHT.isht"]}
{"id": "C103", "title": "Real spherical harmonic transform inverts", "statement": "RSHT.fsht of the samples of a real band-limited function returns its coefficients of order m >= 0 and zeros for m > l; fsht(isht(c)) returns c with the imaginary parts of order zero removed (a real signal cannot carry them); up to an error proportional to the 1e-14 weight cut-off.", "quantifier": "all band limits, all coefficient tensors, all real band-limited signals", "why_tests_cant": "A statement about a linear map for all L and all inputs.", "anchors": ["ebsdtorch/harmonics/sht.py:RSHT.fsht", "ebsdtorch/harmonics/sht.py:RSHT.isht"]}
{"id": "C104", "title": "Spherical cross correlation over all rotations", "statement": "With a half-pi Wigner table that covers the band limit, cs2cc_ returns for every pair of (broadcast) batch elements and every voxel (a,b,c) the magnitude of the integral over the sphere of the first function times the conjugate of the second one turned by Rz(alpha-pi/2) Ry(pi-beta) Rz(gamma-pi/2), with alpha, beta, gamma = 2 pi a/(2B-1), ...; rs2cc_ returns that integral for the real functions given by their coefficients of order m >= 0. Batches that cannot be broadcast are refused.", "quantifier": "all band limits B >= 1, all tables covering B, all batches of coefficients, all voxels", "why_tests_cant": "Signs, conjugations, shifts and index slices must be right for every degree, order and voxel.", "anchors": ["ebsdtorch/harmonics/sht_cc.py:rs2cc_", "ebsdtorch/harmonics/sht_cc.py:cs2cc_"]}
{"id": "C105", "title": "Fast real cross correlation agrees with the slow one", "statement": "rs2cc_fast_ with the dense table of half-pi Wigner entries returns the same volume as rs2cc_.", "quantifier": "all band limits, all batches of coefficients of real functions, all voxels", "why_tests_cant": "Equality of two linear algebra pipelines on all inputs.", "anchors": ["ebsdtorch/harmonics/sht_cc.py:rs2cc_fast_", "ebsdtorch/harmonics/sht_cc.py:rs2cc_"]}
{"id": "C106", "title": "Accuracy of the homochoric inverse", "statement": "Converting an axis-angle pair (or a quaternion, or cubochoric coordinates of it) with angle between 0 and pi to homochoric coordinates and back with ho2ax gives the same unit axis, and the same angle to within 3e-7 rad (single precision fit), 1.2e-8 rad (double precision fit), 1e-11 rad (double precision with the Newton step, fast=False); ho2ax_reference to within 4e-8 ('kikuchipy') and 8e-11 rad ('EMsoft') and any other coefficient name is refused; ho2ax_newton returns a unit axis as well, and the angle to within 8e-7 (single precision, two updates) or 2e-13 rad (double precision, three updates). Only rotations smaller than the documented cut-off may come back as the identity.", "quantifier": "all unit axes and all angles in [0, pi], both precisions, both coefficient sets", "why_tests_cant": "The error of a fitted polynomial is a bound over a continuum of angles, with the worst case between any sample points; the fits are near-minimax and oscillate between samples.", "anchors": ["ebsdtorch/s2_and_so3/orientations.py:ho2ax", "ebsdtorch/s2_and_so3/orientations.py:ho2ax_reference", "ebsdtorch/s2_and_so3/orientations.py:ho2ax_newton", "ebsdtorch/s2_and_so3/orientations.py:ho2qu", "ebsdtorch/s2_and_so3/orientations.py:cu2qu"]}
{"id": "C107", "title": "Orientation colours", "statement": "ori_color_laue gives the same colour to orientations that are symmetrically equivalent under the Laue class (in the sense of ori_to_fz_laue) and to orientations that turn the reference direction into equivalent directions; every channel is a number from 0 to 255, and the colour is the RGB value of the HSL colour with hue (2 theta + 1/2)/(2 pi) mod 1, saturation 1 and lightness phi, where theta and phi are the polar angle and the azimuth of the reduced direction.", "quantifier": "all batches of unit orientations, all reference directions, all 11 Laue classes, both precisions", "why_tests_cant": "Invariance holds for every orientation and every group element or not at all; a test with the identity or with a two-fold axis along the reference direction cannot see on which side the symmetry acts, and byte overflow occurs only in part of the sector.", "anchors": ["ebsdtorch/s2_and_so3/laue_fz_ori.py:ori_color_laue", "ebsdtorch/s2_and_so3/laue_fz_s2.py:s2_to_fz_laue"]}
{"id": "C108", "title": "Sampling at a given angular resolution", "statement": "sample_ori_fz_laue_angle returns, for every Laue class, every resolution above 0.03732 degrees and every random permutation, unit quaternions that all lie in the fundamental zone, none of the grid members of the zone lost or repeated, and the samples reach every orientation up to symmetry to within the requested resolution whatever the class; the rotation angle w of a grid point satisfies w - sin w = 8 m^3/pi (m = largest cubochoric coordinate) up to the accuracy of the fit.", "quantifier": "all Laue classes, resolutions, permutations, precisions and tie-breaking orders of argsort", "why_tests_cant": "Membership and completeness quantify over all grid sizes and permutations; the covering distance is a supremum over a continuum of orientations.", "anchors": ["ebsdtorch/s2_and_so3/laue_fz_ori.py:sample_ori_fz_laue_angle", "ebsdtorch/s2_and_so3/sampling.py:so3_cubochoric_grid", "ebsdtorch/s2_and_so3/orientations.py:cu2qu"]}
{"id": "C109", "title": "Real part of the scattering factors", "statement": "scatter_factor_WK with the default tables succeeds for all elements 1-98 and returns a tensor [voltages, elements, magnitudes] whose real part is positive and within 0.19 % (helium 0.55 %) of the Weickenmeier-Kohl form s^-2 sum A_i (1 - exp(-B_i s^2)) times the Debye-Waller factor of the given displacement times the relativistic mass ratio; with return_type='ITC' of the bare form at s = g/2, with no imaginary part. The replacement branches for small and large arguments introduce no larger error and no sign change.", "quantifier": "all lists of elements 1-98, displacements, positive voltages and scattering magnitudes, including 0", "why_tests_cant": "The error of the piecewise replacement is a supremum over a continuum of magnitudes for each of 98 rows of parameters; the branch boundaries fall at element-dependent magnitudes.", "anchors": ["ebsdtorch/crystallography/scattering_factors/scattering_factors_WK.py:scatter_factor_WK", "ebsdtorch/crystallography/scattering_factors/scattering_factors_WK.py:wk_A_param", "ebsdtorch/crystallography/scattering_factors/scattering_factors_WK.py:wk_B_param"]}
{"id": "C110", "title": "Absorption at zero scattering", "statement": "The absorptive scattering factors are finite, and at zero scattering the imaginary part is positive (electrons are lost, never gained) whenever a loss channel is included; an atom without thermal motion has zero thermal diffuse absorption.", "quantifier": "all elements 1-98, displacements including zero, positive voltages, both channel flags", "why_tests_cant": "Positivity must hold for every element, displacement and voltage; helium has a negative parameter, and the sign follows from an inequality between sums of x log x, not from a sample.", "anchors": ["ebsdtorch/crystallography/scattering_factors/scattering_factors_WK.py:scatter_factor_WK", "ebsdtorch/crystallography/scattering_factors/scattering_factors_Hybrid.py:scatter_factor_hybrid"]}
{"id": "C111", "title": "Continuity of the absorption at zero scattering", "statement": "The thermal diffuse contribution computed for nonzero magnitudes tends to the value computed by the separate formula for magnitude zero as the magnitude tends to zero.", "quantifier": "all elements 1-98, all nonzero displacements", "why_tests_cant": "A limit cannot be tested: near zero the formula subtracts logarithms and exponential integrals that all diverge.", "anchors": ["ebsdtorch/crystallography/scattering_factors/scattering_factors_WK.py:scatter_factor_WK", "ebsdtorch/crystallography/scattering_factors/scattering_factors_WK.py:RIH1_torch_where"]}
{"id": "C112", "title": "Elements outside the tables", "statement": "An atomic number for which no parameters are tabulated is refused by scatter_factor_WK, scatter_factor_hybrid and scatter_factor_LVD.", "quantifier": "all integers as atomic numbers, at every position of every batch, every convention", "why_tests_cant": "The set of invalid atomic numbers is infinite and the indexing wraps around for only part of it.", "anchors": ["ebsdtorch/crystallography/scattering_factors/scattering_factors_WK.py:scatter_factor_WK", "ebsdtorch/crystallography/scattering_factors/scattering_factors_Hybrid.py:scatter_factor_hybrid", "ebsdtorch/crystallography/scattering_factors/scattering_factors_LVD_TCB.py:scatter_factor_LVD"]}
{"id": "C113", "title": "Entries of a batch of scattering factors are independent", "statement": "Every entry of the tensor returned for lists of voltages, elements and magnitudes equals the result of the call with that voltage, element and magnitude alone.", "quantifier": "all lengths of the three lists, all their values, all three parameterisations", "why_tests_cant": "Broadcasting errors appear only for particular combinations of the three lengths; single-voltage tests cannot see them.", "anchors": ["ebsdtorch/crystallography/scattering_factors/scattering_factors_WK.py:scatter_factor_WK", "ebsdtorch/crystallography/scattering_factors/scattering_factors_Hybrid.py:scatter_factor_hybrid", "ebsdtorch/crystallography/scattering_factors/scattering_factors_LVD_TCB.py:scatter_factor_LVD"]}
{"id": "C114", "title": "One unit of the scattering magnitude", "statement": "The three parameterisations are interchangeable: at the same scattering magnitude g and displacement they apply the same Debye-Waller damping, as the reflection tables assume when they pass the same g to either.", "quantifier": "all magnitudes, displacements, voltages, elements and parameter tables", "why_tests_cant": "Needs the comparison of two functions on all inputs; values at g = 0 agree in every unit.", "anchors": ["ebsdtorch/crystallography/scattering_factors/scattering_factors_WK.py:scatter_factor_WK", "ebsdtorch/crystallography/scattering_factors/scattering_factors_Hybrid.py:scatter_factor_hybrid", "ebsdtorch/crystallography/scattering_factors/scattering_factors_LVD_TCB.py:scatter_factor_LVD", "ebsdtorch/crystallography/diffraction.py"]}
{"id": "C115", "title": "Scaled exponential integral of large arguments", "statement": "RIH2_torch(X) approximates X exp(-X) Ei(X) to 3e-4 for all X above 20, the range it is used for.", "quantifier": "all real X above 20", "why_tests_cant": "Interpolation error between table entries is a supremum over a continuum; the reference value is a transcendental function.", "anchors": ["ebsdtorch/crystallography/scattering_factors/scattering_factors_WK.py:RIH2_torch", "ebsdtorch/crystallography/scattering_factors/scattering_factors_WK.py:RIH1_torch_where"]}
{"id": "C116", "title": "Accuracy of the exponential integral", "statement": "expi(x) is the exponential integral Ei(x) (the antiderivative of e^x/x that vanishes at minus infinity): absolute error at most 6e-15 for -1 <= x <= 6, at most 1e-15 e^x below -1, and relative error at most 1.5e-14 above 6.", "quantifier": "all nonzero real x", "why_tests_cant": "The error of a rational approximation is a supremum over a continuum, and the reference is a transcendental function; sampled points miss a branch that is missing between two break points.", "anchors": ["ebsdtorch/crystallography/scattering_factors/scattering_factors_WK.py:expi", "ebsdtorch/crystallography/scattering_factors/scattering_factors_WK.py:exp1"]}
{"id": "C117", "title": "The absorption integral RIH1", "statement": "RIH1_torch_where(X1, X2, X3) is exp(-X1) (Ei(X2) - Ei(X3)) up to 3e-14 relative to exp(-X1) max(1, Ei(max(X2, X3))).", "quantifier": "all real X1 and all positive X2, X3", "why_tests_cant": "The four branches switch between rational approximations and a table; the error is a supremum over a three-dimensional continuum.", "anchors": ["ebsdtorch/crystallography/scattering_factors/scattering_factors_WK.py:RIH1_torch_where", "ebsdtorch/crystallography/scattering_factors/scattering_factors_WK.py:RIH2_torch"]}
{"id": "C118", "title": "Conversions between rotation representations agree", "statement": "Every conversion function between axis-angle, Rodrigues-Frank, Euler (Bunge), matrix, quaternion, homochoric and cubochoric representations returns a representation of the rotation it was given (including the ones that chain two or three others); homochoric and cubochoric sources up to the accuracy of the polynomial fit.", "quantifier": "all rotations: every unit axis and angle, every Rodrigues vector, all Euler angles, every rotation matrix, every vector of the homochoric ball and of the cubochoric cube", "why_tests_cant": "There are about thirty chained functions over three-dimensional continua, with special cases on measure-zero sets (identity, half turns, negative angles) that random samples never hit.", "anchors": ["ebsdtorch/s2_and_so3/orientations.py:ax2cu", "ebsdtorch/s2_and_so3/orientations.py:ro2om", "ebsdtorch/s2_and_so3/orientations.py:om2ax", "ebsdtorch/s2_and_so3/orientations.py:cu2ro", "ebsdtorch/s2_and_so3/orientations.py:ho2bu", "ebsdtorch/s2_and_so3/orientations.py:bu2ho"]}
{"id": "C119", "title": "Clifford torus coordinates are defined and faithful", "statement": "qu2cl returns six angles in [-pi/2, pi/2] that do not depend on the sign of the quaternion and that are equal for two unit quaternions only if they are the same rotation.", "quantifier": "all unit quaternions", "why_tests_cant": "Faithfulness relates all pairs of rotations; the undefined quotients occur only where two components vanish, e.g. at the identity, which random quaternions never hit.", "anchors": ["ebsdtorch/s2_and_so3/orientations.py:qu2cl"]}
{"id": "C120", "title": "Electron trajectories of the Monte Carlo kernel", "statement": "In every trial of the Monte Carlo simulation the electron starts at the surface with the given energy and tilted direction, the direction of flight stays a unit vector and turns by the sampled polar angle and azimuth in each event, the step and the energy loss of each event are those of Joy's screened Rutherford and Joy-Luo formulas, every event costs energy, and an electron that is counted has left through the surface, with the distance from its last scattering site to the surface as its escape depth.", "quantifier": "all material and beam parameters, all random draws, all numbers of steps", "why_tests_cant": "A trajectory is a chain of up to thousands of random events; the invariants must hold after each of them for all draws.", "anchors": ["ebsdtorch/crystallography/ebsd_mc.py:bse_sim_mc"]}
{"id": "C121", "title": "The histogram counts the trials", "statement": "Whatever the order in which the device executes the work items, every cell of the accumulator holds the number of trials whose electron leaves within the allowed number of steps with its energy, escape depth and direction in the bins of that cell; cells are within the buffer and different bins never share a cell.", "quantifier": "all parameters, seeds, numbers of electrons and trials, and all interleavings of the atomic increments", "why_tests_cant": "The schedule of a GPU cannot be controlled by a test, and the statement is about all interleavings and all random streams.", "anchors": ["ebsdtorch/crystallography/ebsd_mc.py:bse_sim_mc", "ebsdtorch/crystallography/ebsd_mc.py:OpenCLMonteCarlo", "ebsdtorch/crystallography/ebsd_mc.py:run_monte_carlo_simulation"]}
{"id": "C122", "title": "Mirror symmetry of the simulation", "statement": "For omega = 0 reversing all azimuths of a trajectory mirrors it: same depths, energies and escape, same energy, depth and vertical bins and the mirrored horizontal bin, so averaging the histogram with its mirror image is legitimate.", "quantifier": "all trajectories: all parameters with omega = 0, all draws, all numbers of steps", "why_tests_cant": "It compares two infinite families of random trajectories with each other.", "anchors": ["ebsdtorch/crystallography/ebsd_mc.py:bse_sim_mc"]}
{"id": "C123", "title": "The random generator never degenerates", "statement": "The generator of the kernel never collapses to a fixed state, never merges two different streams, and produces numbers in [0, 1).", "quantifier": "all seeds and all numbers of draws", "why_tests_cant": "The period is about 2^113; bad seeds have probability about 1e-7 per component.", "anchors": ["ebsdtorch/crystallography/ebsd_mc.py:lfsr113_Bits"]}
{"id": "C124", "title": "run_simulation accumulates launches until there are enough counts", "statement": "run_simulation returns the sum of the counts of all launches without the extra energy bins (symmetrised without losing counts if omega = 0), together with the number of electrons simulated in them; it stops at the first launch that brings the histogram to min_histogram_mass, and it always returns; energy bin k holds exit energies between kV - (k+1) b and kV - k b.", "quantifier": "all sequences of launch results, all parameters", "why_tests_cant": "The number of launches is unbounded and their results random; termination is a statement about infinite histories.", "anchors": ["ebsdtorch/crystallography/ebsd_mc.py:MonteCarloSimulator.run_simulation"]}
{"id": "C125", "title": "The number of steps is sufficient", "statement": "The number of steps chosen at construction is the smallest of 250, 500, ..., 2000 whose test launch puts electrons into every energy bin below kV.", "quantifier": "all results of the test launches", "why_tests_cant": "The test launches are random; the case in which no launch fills the bins does not occur with ordinary settings.", "anchors": ["ebsdtorch/crystallography/ebsd_mc.py:MonteCarloSimulator._find_required_steps"]}
{"id": "C126", "title": "Resampling from logarithmic to linear depth", "statement": "resample_to_linear returns the density of counts per nm at the centres of the linear bins (exactly for quadratic densities), never negative, normalised on request; it refuses other depth modes and unknown methods, and does not invent values outside the range of depths.", "quantifier": "all histograms, bin sizes and numbers of bins, all quadratic densities", "why_tests_cant": "The interpolation depends on the position of every query relative to an exponential grid; errors in one segment are invisible on smooth data.", "anchors": ["ebsdtorch/crystallography/ebsd_mc.py:MonteCarloSimulator.resample_to_linear", "ebsdtorch/crystallography/ebsd_mc.py:MonteCarloSimulator._interpquad"]}
{"id": "C127", "title": "Coefficients of the scattering-matrix formalism", "statement": "calc_helper_scatter_matrix returns, for the beams of the Bloch helper, the matrix whose entry (i, j) is the electron wavelength times the Fourier coefficient of the (complex) potential for hkl[j] - hkl[i], the same wavelength as the Bloch helper and the absorption length 1/(wavelength * U'_0) of the incident beam, for either phase convention, with or without absorption; unknown names of scattering factors are refused.", "quantifier": "all crystals, voltages, cut-offs, atomic scattering factors and both phase conventions", "why_tests_cant": "The entry is assembled from two moduli, two phases and two extinction lengths; a lost sign shows up only for non-centrosymmetric or shifted structures and extinct reflections.", "anchors": ["ebsdtorch/crystallography/diffraction.py:calc_helper_scatter_matrix"]}
{"id": "C128", "title": "Standard cleaning", "statement": "standard_clean never raises on a stack of patterns; number, shape and order of the patterns and the scan shape are kept; every cleaned pattern has grey levels in [0, 1) with minimum 0, each pixel being a non-decreasing function of its raw value minus the mean of that pixel over the scan; adding the same image to all raw patterns does not change the result.", "quantifier": "all stacks of patterns of any size, all common backgrounds", "why_tests_cant": "The stages hand intermediate values to each other (CLAHE raises if a grey level leaves its bins); whether that can happen depends on all pixel values.", "anchors": ["ebsdtorch/ebsd/experiment_pats.py:ExperimentPatterns.standard_clean", "ebsdtorch/ebsd/experiment_pats.py:ExperimentPatterns.contrast_enhance_clahe"]}
{"id": "C129", "title": "Cleaning one object leaves other data alone", "statement": "In any history of constructing ExperimentPatterns objects and cleaning them, a call on one object changes neither the caller's tensors nor the patterns of other objects.", "quantifier": "all histories of constructor and cleaning calls on any number of objects and tensors", "why_tests_cant": "Sharing depends on the whole history: the object holds a view until a method assigns a new tensor.", "anchors": ["ebsdtorch/ebsd/experiment_pats.py:ExperimentPatterns.__init__", "ebsdtorch/ebsd/experiment_pats.py:ExperimentPatterns.subtract_overall_background", "ebsdtorch/ebsd/experiment_pats.py:ExperimentPatterns.normalize_per_pattern"]}
{"id": "C130", "title": "A cleaning call that raises changes nothing", "statement": "If a cleaning method raises, the patterns, their shape and every other object are as before, and later calls behave as if it had not been made.", "quantifier": "all worlds, methods and arguments", "why_tests_cant": "Must hold for every state and every reason to raise; tests stop at the exception.", "anchors": ["ebsdtorch/ebsd/experiment_pats.py:ExperimentPatterns.normalize_per_pattern", "ebsdtorch/ebsd/experiment_pats.py:ExperimentPatterns.contrast_enhance_clahe", "ebsdtorch/ebsd/experiment_pats.py:ExperimentPatterns.do_nlpar"]}
{"id": "C131", "title": "NLPAR averages over the right scan positions", "statement": "do_nlpar on a 2D scan replaces each pattern by a weighted mean (weights non-negative, summing to one, largest for itself) of exactly the patterns at most k_rad scan rows and columns away, pattern number p being at row p // W and column p % W; shape and order are kept; other scans are refused.", "quantifier": "all scan shapes, patterns, radii and coefficients", "why_tests_cant": "A transposed or shifted index map gives plausible averages; identical neighbours are rare in test data.", "anchors": ["ebsdtorch/ebsd/experiment_pats.py:ExperimentPatterns.do_nlpar", "ebsdtorch/preprocessing/nlpar.py:nlpar"]}
{"id": "C132", "title": "Reading a master pattern", "statement": "read_master_pattern returns, hemisphere by hemisphere (north left, south right), the mean of the stored patterns over the energies, weighted by the share of electrons counted at each energy and summed over the atomic sites, with the Laue group of the stored space group.", "quantifier": "all files: any number of sites and energies, any counts and patterns", "why_tests_cant": "The array axes are identified by squeezing and broadcasting, so the meaning of the code depends on the sizes in the file.", "anchors": ["ebsdtorch/io/read_master_pattern.py:read_master_pattern"]}
{"id": "C133", "title": "Construction of a master pattern", "statement": "MasterPattern(...) succeeds exactly if the pattern (or each of two hemispheres with the same number of rows) is two-dimensional and exactly one valid Laue group, point group or space group is given; hemispheres are stored side by side and the Laue group is the one asked for.", "quantifier": "all argument combinations", "why_tests_cant": "All combinations of present, absent, valid and invalid arguments must be covered.", "anchors": ["ebsdtorch/ebsd/master_pattern.py:MasterPattern.__init__"]}
{"id": "C134", "title": "Nearest neighbours in reduced precision", "statement": "When ChunkedKNN computes scores inexactly (half precision or 32 bit floats, int8 quantisation with any scales) but to within eps for a query, it still returns k distinct valid rows for it, each with a value within eps of its true score, and no other row is better by more than 2 eps, independently of the number of chunks and the schedule; rows separated by more than 2 eps are found exactly. With the default half precision this needs no assumption on the magnitude of the data.", "quantifier": "all data, queries, chunkings, schedules, tie-breaking, computed scores within eps (different in every call), monotone rounding of the stored values", "why_tests_cant": "The error could accumulate over chunks or depend on the schedule, and the worst case of rounding is adversarial.", "anchors": ["ebsdtorch/utils/knn.py:ChunkedKNN", "ebsdtorch/utils/knn.py:quant_model_data", "ebsdtorch/utils/knn.py:topk_quantized_data", "ebsdtorch/utils/knn.py:knn_batch"]}
{"id": "C135", "title": "BlurAndDownsample shrinks an image without changing its grey level, range or alignment", "statement": "BlurAndDownsample(scale)(x) returns floor(H/scale) x floor(W/scale) pixels exactly when the blur kernel fits and no output side is zero; a uniform image keeps its grey level; no output grey level leaves the range of the input; for an integer scale each output pixel is sampled at the centre of its block; every interpolation mode of torch is accepted.", "quantifier": "all positive scale factors, all image sizes and grey levels, all modes, both align_corners", "why_tests_cant": "image sizes, scale factors and grey levels are unbounded; the size formula depends on rounding of a reciprocal", "anchors": ["ebsdtorch/preprocessing/resampling.py:BlurAndDownsample", "ebsdtorch/preprocessing/resampling.py:GaussianBlur2d"]}
{"id": "C136", "title": "Moving and casting a unit cell keeps its tensors together", "statement": "After any sequence of Cell.to(device) and Cell.set_fp_dtype(dtype), every tensor of the cell is on the device asked for last, every real tensor has the dtype asked for last, atomic numbers stay integers, and no value changes unless a dtype cannot hold it; a Cell can be constructed on any device.", "quantifier": "all histories of to/set_fp_dtype calls, all devices and dtypes, all crystals", "why_tests_cant": "the histories are unbounded, and a tensor left behind shows only in a later mixed-device operation", "anchors": ["ebsdtorch/crystallography/unit_cell.py:Cell.to", "ebsdtorch/crystallography/unit_cell.py:Cell.set_fp_dtype", "ebsdtorch/crystallography/unit_cell.py:Cell.__init__"]}
{"id": "C137", "title": "Deformation gradients are returned as they were set", "statement": "For every history of set_inv_f_matrix calls, get_inv_f_matrix returns for each (possibly negative) index the matrix of the last accepted call, the identity if that call had no tensor, and raises before the first accepted call or for an index out of range; the documented shapes (N,3,3), (N,9), (1,3,3), (1,9) are accepted; the returned matrix is the inverse of the gradient set.", "quantifier": "all histories of set calls (accepted or refused), all tensors, all index lists", "why_tests_cant": "histories, scan sizes and index lists are unbounded", "anchors": ["ebsdtorch/ebsd/experiment_pats.py:ExperimentPatterns.set_inv_f_matrix", "ebsdtorch/ebsd/experiment_pats.py:ExperimentPatterns.get_inv_f_matrix"]}
{"id": "C138", "title": "Composing and normalising rotations in floating point", "statement": "In floating-point arithmetic of any precision of at least 8 bits, composing n rotations with qu_prod gives, up to sign, the exact product with a relative error that grows linearly in n (at most 12 n 2^-p for inputs of unit length up to rounding), the length stays within 17 (n+1) 2^-p of 1, and qu_norm returns the exact unit quaternion up to 4.2 * 2^-p.", "quantifier": "all precisions p >= 8, all nearest roundings (any tie rule), all quaternions and chains of any length n <= 2^p / 64", "why_tests_cant": "the chains and the 2^128 floating-point inputs per product cannot be enumerated; error bounds are statements about all of them", "anchors": ["ebsdtorch/s2_and_so3/quaternions.py:qu_prod", "ebsdtorch/s2_and_so3/quaternions.py:qu_norm"]}
{"id": "C139", "title": "Rotating points in floating point", "statement": "In floating-point arithmetic qu_apply(q, v) returns q v q* with an error that is a small multiple of 2^-p of the length of v.", "quantifier": "all precisions p >= 8, all nearest roundings, all quaternions and points of any length", "why_tests_cant": "error bounds range over all floating-point inputs, and the failing points are far below the sizes used in tests", "anchors": ["ebsdtorch/s2_and_so3/quaternions.py:qu_apply"]}
{"id": "C140", "title": "Angles between orientations are numbers in floating point", "statement": "In floating-point arithmetic ori_angle_laue and disori_angle_laue of two orientations of unit length (up to rounding) return a number, never NaN: twice the arc cosine of the largest scalar part over the symmetric equivalents, with that scalar part right to a small multiple of 2^-p.", "quantifier": "all precisions 8 <= p <= 53, all nearest roundings, all pairs of orientations of unit length up to rounding, all Laue groups", "why_tests_cant": "NaN appears only for particular bit patterns of (nearly) equivalent orientations; random tests that miss them pass", "anchors": ["ebsdtorch/s2_and_so3/laue_fz_ori.py:ori_angle_laue", "ebsdtorch/s2_and_so3/laue_fz_ori.py:disori_angle_laue", "ebsdtorch/s2_and_so3/quaternions.py:qu_angle"]}
{"id": "C141", "title": "Reduction to the fundamental zone in floating point", "statement": "In floating-point arithmetic ori_to_fz_laue(q, id) returns a symmetric equivalent of q up to 14 * 2^-p of its length, with non-negative scalar part, and no symmetric equivalent of q has a scalar part larger by more than 10 * 2^-p of that length.", "quantifier": "all precisions 8 <= p <= 53, all nearest roundings, all quaternions (of any length), all Laue groups", "why_tests_cant": "ties between equivalents are decided by rounding, for all floating-point inputs", "anchors": ["ebsdtorch/s2_and_so3/laue_fz_ori.py:ori_to_fz_laue", "ebsdtorch/s2_and_so3/laue_generators.py:laue_elements"]}
{"id": "C142", "title": "Phonon absorption obeys the optical theorem", "statement": "With the phonon channel alone, the forward (g = 0) imaginary part returned by scatter_factor_WK and scatter_factor_hybrid equals the one the optical theorem gives for the total thermal-diffuse cross section (Einstein model, small-angle solid angle) of the same element's tabulated scattering factor.", "quantifier": "all elements 1-98, all nonzero displacements, all positive voltages", "why_tests_cant": "The reference is an improper integral of the form factor for every element, displacement and voltage; a test compares a few numbers with another implementation of the same closed form", "anchors": ["ebsdtorch/crystallography/scattering_factors/scattering_factors_WK.py:scatter_factor_WK", "ebsdtorch/crystallography/scattering_factors/scattering_factors_Hybrid.py:scatter_factor_hybrid"]}
{"id": "C143", "title": "Electron wavelength and wave number against CODATA", "statement": "e_wavelength_eV_to_A agrees with the relativistic de Broglie wavelength computed from the CODATA 2018 constants to 3 parts in ten million; the wave number inside scatter_factor_WK exceeds the CODATA one by 4 to 7 parts in a hundred thousand.", "quantifier": "all positive accelerating voltages (up to 3000 kV for the wave number)", "why_tests_cant": "An error bound over a continuum of voltages", "anchors": ["ebsdtorch/crystallography/scattering_factors/scattering_factors_WK.py:e_wavelength_eV_to_A", "ebsdtorch/crystallography/scattering_factors/scattering_factors_WK.py:scatter_factor_WK"]}
{"id": "C144", "title": "Integration grid of the Ewald sphere integral", "statement": "For every number of intervals the points the Simpson integration over the Ewald sphere uses along an axis are odd in number; with linspace sampling they are equally spaced from the lower to the upper end, with logspace sampling they are the lower end followed by points in equal ratios from the lower end plus eps to the upper end.", "quantifier": "all interval counts (at least 1 for linspace, 4 for logspace), all ends, bases above one and eps with a + eps > 0", "why_tests_cant": "Quantifies over every interval count and every parity", "anchors": ["ebsdtorch/crystallography/scattering_factors/scattering_factors_LVD_TCB.py:scatter_factor_LVD"]}
{"id": "C145", "title": "NLPAR weights follow the published formula and its decay length is fitted by Newton's method", "statement": "Whenever nlpar returns a finite result, every denoised pattern is the average over the on-scan part of the search window with weights exp(-max(0, (d^2 - n (s^2 + s'^2)) / (sqrt(2n) (s^2 + s'^2))) / g^2) (central one times exp(bias) for positive bias), where s^2 is half the smallest mean squared difference to the eight closest neighbours, and g results from at most ten Newton steps from 1, with the exact derivative, for mean central share = coeff.", "quantifier": "all scans, radii, coefficients, tolerances, biases and tie orders of the offset sort", "why_tests_cant": "An identity over all scans, and a hand-written derivative that must be right at every point", "anchors": ["ebsdtorch/preprocessing/nlpar.py:nlpar"]}
{"id": "C146", "title": "The Bloch matrix holds the Fourier coefficients of the crystal potential", "statement": "For every crystal of space group 1-230 with non-degenerate cell, every atomic scattering factor, dmin and voltage, entry (i,j) of the matrix returned by calc_helper_bloch_formalism is F(g_j - g_i)/(pi V) in nm^-2, F being the sum over all atoms of the cell of occupancy * f * exp(-2 pi i (hx+ky+lz)), times one fixed factor between 1+7e-6 and 1+8e-6; without absorption only the real parts enter and the mean absorption is 0, with it the mean absorption is the modulus of the coefficient of the imaginary parts at 000.", "quantifier": "all crystals of all space groups, scattering factors, cut-offs, voltages, pairs of beams", "why_tests_cant": "An identity over all crystals and beam lists, including look-ups by signed index into a table", "anchors": ["ebsdtorch/crystallography/diffraction.py:calc_helper_bloch_formalism"]}
{"id": "C147", "title": "The curve stage of FactorECM works in the group of the elliptic curve", "statement": "For every modulus N, every prime factor q of N and every start that is a regular point of the curve modulo q, whenever multiplication by k returns, its result is k times the start in the group of the curve modulo q; a whole stage that returns has multiplied by the product over the primes below the bound of the largest power at most sqrt(bound); hence if the order of the start modulo some prime factor divides that product, the stage raises with a number from which a factor is taken. The curve drawn is regular modulo N (fails: the discriminant test has the wrong sign, so singular curves are accepted).", "quantifier": "all moduli, prime factors, curves, points, multipliers and bounds", "why_tests_cant": "Ranges over all curves and moduli; the group law (associativity) over every prime field is needed", "anchors": ["ebsdtorch/utils/factorize.py:FactorECM"]}
{"id": "C148", "title": "The points of the Fibonacci spirals", "statement": "For every n and mode, point i of s2_fibonacci has height 1-2(i+e)/(n-1+2e) with the tabulated offset e and azimuth 2 pi i/golden ratio, all points are distinct and their heights are symmetric about the equator; quaternion i of so3_fibonacci has radii sqrt(s/n), sqrt(1-s/n), s=i+1/2, and angles 2 pi s/sqrt 2 and 2 pi s/psi, psi agreeing to 23 decimals with the unique positive solution of x^4=x+4.", "quantifier": "all n, both modes, all indices", "why_tests_cant": "n is unbounded, and the constant is compared with an irrational root", "anchors": ["ebsdtorch/s2_and_so3/sampling.py:s2_fibonacci", "ebsdtorch/s2_and_so3/sampling.py:so3_fibonacci"]}
{"id": "C149", "title": "Quaternions and matrices in floating point", "statement": "In binary floating-point arithmetic with p >= 11 bits and any rounding to nearest, for every quaternion that is unit up to 5 units of rounding: qu2om gives the rotation v -> q v q* up to 10 units of rounding per entry, and om2qu(qu2om(q)) returns the same rotation up to a fixed number of units of rounding (true with an extra 3.2/w; fails close to half turns, where the signs of the axis are taken from cancelled differences).", "quantifier": "all precisions, roundings to nearest, near-unit quaternions and vectors", "why_tests_cant": "Ranges over every precision and every rounding; the failing set is a tiny neighbourhood of the half turns", "anchors": ["ebsdtorch/s2_and_so3/orientations.py:qu2om", "ebsdtorch/s2_and_so3/orientations.py:om2qu"]}
{"id": "C150", "title": "Axis-angle and quaternions in floating point", "statement": "In binary floating-point arithmetic with p >= 11 bits, any rounding to nearest and correctly rounded elementary functions, qu2ax(ax2qu(n, theta)) returns a unit axis n and a floating-point angle 0 < theta < pi up to a fixed number of units of rounding (true for the axis with 12 units whenever the returned angle is not 0, and for the angle with 20/theta + 7 units; fails for theta^2 <= 2^-p, where the rotation is lost: the result is angle 0 about z).", "quantifier": "all precisions, roundings to nearest, near-unit axes and representable angles", "why_tests_cant": "Ranges over every precision, rounding and angle; the failing set is below 2.4e-4 rad in single precision", "anchors": ["ebsdtorch/s2_and_so3/orientations.py:ax2qu", "ebsdtorch/s2_and_so3/orientations.py:qu2ax"]}
{"id": "C151", "title": "Pattern-centre search by mutual information", "statement": "With metric=\"mi\", on valid patterns and a master pattern with values in [0,1), the search returns the point of its (x,y,z) grid at which the mean over the patterns of the best score over the whole dictionary is largest, with one dictionary orientation per pattern attaining that score there; the score of an entry is the mutual information of the stretched, zero-padded pattern and the displaced simulation at four grey levels; gain and offset of a pattern do not matter and an unknown metric is rejected.", "quantifier": "all patterns, dictionaries, master patterns, detector shapes, search ranges, binnings and batch sizes", "why_tests_cant": "Ranges over all image contents and dictionaries and over the partition of the dictionary into batches", "anchors": ["ebsdtorch/ebsd/fitting.py:spatial_fft_pc_fitter", "ebsdtorch/utils/mutual_information.py:cmif"]}
{"id": "C152", "title": "A noise-free pattern is indexed as its own orientation", "statement": "If an experimental pattern is the simulated pattern of some dictionary orientation up to a positive gain and an offset, dictionary_index_orientations assigns it an orientation with the same simulated pattern up to an offset (true for the default metric when all simulated patterns have equal contrast, and for the distance metrics with gain 1; fails otherwise, because neither pattern is normalised by its contrast).", "quantifier": "all dictionaries, simulated patterns, gains, offsets, chunk sizes and tie-breaking of topk", "why_tests_cant": "Ranges over all pattern contents and schedules; a dictionary of nearly equal contrast hides the defect", "anchors": ["ebsdtorch/ebsd/indexing.py:dictionary_index_orientations", "ebsdtorch/utils/knn.py:ChunkedKNN"]}
{"id": "C153", "title": "Looking up the master pattern", "statement": "MasterPattern.interpolate returns one value per direction, depending on that direction alone and lying between the smallest and the largest pixel; it is the bilinear interpolation of the four pixels around the direction's square-Lambert image within that direction's own hemisphere, so that every pixel of both hemispheres is the value in the direction of its centre, and indexing and refinement look the same orientation up alike (fails within half a pixel of the seam between the hemispheres, where the two are blended, and with align_corners=True, which the refinement uses).", "quantifier": "all hemisphere sizes and pixel values, all lists of directions, both alignment modes", "why_tests_cant": "Ranges over all directions and pixel contents; the wrong blend only occurs along one edge and is small elsewhere", "anchors": ["ebsdtorch/ebsd/master_pattern.py:MasterPattern.interpolate", "ebsdtorch/ebsd/indexing.py:dictionary_index_orientations", "ebsdtorch/ebsd/refining.py:orientation_grid_refinement"]}
{"id": "C154", "title": "Rays start at the scan position", "statement": "With average_pattern_center=False, indexing and refinement simulate the pattern of a scan position with the rays from that position to the detector pixels, as EBSDGeometry.project2sample gives them with scan coordinates (holds only at the origin, or in the indexing of a single pattern given with three coordinates: the grid refinement adds the scan coordinates instead of subtracting them, the gradient refinement ignores them, the indexing raises or takes the position of pattern i for pixel i, and no array of scan coordinates is accepted by both indexing and refinement).", "quantifier": "all geometries, binnings, numbers of patterns and scan coordinates", "why_tests_cant": "Ranges over all scan positions and array shapes; the sign error vanishes at the scan origin", "anchors": ["ebsdtorch/ebsd/indexing.py:dictionary_index_orientations", "ebsdtorch/ebsd/refining.py:orientation_grid_refinement", "ebsdtorch/ebsd/refining.py:orientation_grad_refinement", "ebsdtorch/ebsd/geometry.py:EBSDGeometry.project2sample"]}
{"id": "C155", "title": "The square Lambert projection preserves areas", "statement": "The solid angle of the directions of either hemisphere that rosca_lambert maps into a region of the square is pi/2 times the area of the region. So each pixel of an h x w hemisphere of a master pattern covers the solid angle 2 pi/(h w), and all direction bins of the Monte Carlo histogram that do not touch the border of the square cover the same solid angle.", "quantifier": "all measurable regions of the square, both hemispheres, all grid sizes and all bins", "why_tests_cant": "A statement about the measure of every region of the sphere", "anchors": ["ebsdtorch/s2_and_so3/sphere.py:rosca_lambert", "ebsdtorch/simulation/monte_carlo.py:bse_sim_mc", "ebsdtorch/ebsd/master_pattern.py:MasterPattern"]}
{"id": "C156", "title": "Cubochoric and homochoric maps preserve volumes", "statement": "cu2ho and ho2cu preserve volume: the vectors that cu2ho (ho2cu) maps into a region have the volume of that region.", "quantifier": "all measurable regions of space, all tie-breaking orders of argsort", "why_tests_cant": "A statement about the volume of every region", "anchors": ["ebsdtorch/s2_and_so3/orientations.py:cu2ho", "ebsdtorch/s2_and_so3/orientations.py:ho2cu"]}
{"id": "C157", "title": "Homochoric and cubochoric coordinates measure rotations uniformly", "statement": "The unit quaternions (rotation angle at least 1e-8, positive scalar part) whose homochoric vector qu2ho, or cubochoric vector qu2cu, lies in a region have the volume of that part of the region inside the homochoric ball (cubochoric cube) as their rotation-invariant measure; so all cells of the grid of so3_cubochoric_grid away from the centre contain the same measure pi^2/n^3 of rotations.", "quantifier": "all measurable regions, all grid sizes up to 10^8 and all cells", "why_tests_cant": "A statement about the measure of every region of orientation space", "anchors": ["ebsdtorch/s2_and_so3/orientations.py:qu2ho", "ebsdtorch/s2_and_so3/orientations.py:qu2cu", "ebsdtorch/s2_and_so3/sampling.py:so3_cubochoric_grid"]}
{"id": "C158", "title": "Scattering factors approach the bare nucleus", "statement": "With the default tables, the elastic scattering factor of scatter_factor_LVD (elements 1-102) and scatter_factor_hybrid (1-98) is positive at every reciprocal length, even, strictly decreasing with its magnitude, and for large reciprocal lengths the Rutherford scattering of the bare nucleus Z/(8 pi^2 a0 s^2) to one part in 10^9; that of scatter_factor_WK is positive and reaches the nuclear value to 7 parts in 10^4 for every element; forward values of the two tables agree to 11 %.", "quantifier": "all elements, all reciprocal lengths", "why_tests_cant": "Positivity, monotonicity and the limit are statements about a continuum of arguments and about its infinite end.", "anchors": ["ebsdtorch/crystallography/scattering_factors/scattering_factors_LVD_TCB.py:eval_LVD_fit", "ebsdtorch/crystallography/scattering_factors/scattering_factors_Hybrid.py:scatter_factor_hybrid", "ebsdtorch/crystallography/scattering_factors/scattering_factors_WK.py:scatter_factor_WK"]}
{"id": "C159", "title": "The absorptive scattering factor converges to the Bird-King integral", "statement": "For every element, displacement, reflection, voltage and range R, the absorptive part returned by scatter_factor_LVD with equidistant sampling tends, as the number of intervals grows, to the integral of the Bird-King integrand over the whole square of half width R (the code integrates one quarter and multiplies by four), with Debye-Waller damping and relativistic scaling.", "quantifier": "all elements, displacements, reflections, voltages and ranges; all sequences of grids", "why_tests_cant": "A limit over infinitely fine grids.", "anchors": ["ebsdtorch/crystallography/scattering_factors/scattering_factors_LVD_TCB.py:scatter_factor_LVD", "ebsdtorch/crystallography/scattering_factors/scattering_factors_LVD_TCB.py:integrand", "ebsdtorch/crystallography/scattering_factors/scattering_factors_LVD_TCB.py:simpson_composite"]}
{"id": "C160", "title": "Fundamental zones share the orientations equally and reduction preserves uniformity", "statement": "For every Laue class, the unit quaternions (non-negative scalar part) that ori_in_fz_laue accepts have measure 2 pi^2 divided by the order of the Laue group; if an orientation is uniformly distributed then ori_to_fz_laue gives a uniformly distributed orientation of the fundamental zone (the measure of the quaternions reduced into any region is the order of the group times the measure of the region within the zone); almost every orientation has exactly one symmetric equivalent in the zone. Consequently sample_ori_fz_laue uses the finest cubochoric grid whose expected number of accepted points does not exceed the target.", "quantifier": "all 11 Laue classes, all measurable regions of orientations, all targets", "why_tests_cant": "A statement about measures of sets of orientations, not about single orientations.", "anchors": ["ebsdtorch/s2_and_so3/laue_fz_ori.py:ori_to_fz_laue", "ebsdtorch/s2_and_so3/laue_fz_ori.py:ori_in_fz_laue", "ebsdtorch/s2_and_so3/laue_fz_ori.py:sample_ori_fz_laue"]}
{"id": "C161", "title": "The accepted sectors of the sphere share its area equally", "statement": "For every Laue class the standard sector of directions has area 4 pi divided by the order of the Laue group, and the set of directions that s2_in_fz_laue accepts has at least this area and at most 144 EPS more, where EPS is the tolerance of the code for the precision used.", "quantifier": "all 11 Laue classes, both precisions", "why_tests_cant": "Area of a set of directions; samples estimate it only.", "anchors": ["ebsdtorch/s2_and_so3/laue_fz_s2.py:s2_in_fz_laue"]}
{"id": "C162", "title": "so3_uniform_quat draws orientations uniformly", "statement": "When the three numbers of a row are independent and uniform on [0, 1), the quaternion that so3_uniform_quat makes of them is uniformly distributed on the unit sphere: the probability that it falls into a measurable region is the measure of the region divided by 2 pi^2, the measure of the whole sphere. The measure is the rotation-invariant one of C157 and C160.", "quantifier": "all measurable regions of unit quaternions", "why_tests_cant": "Equality of two distributions on every measurable region; a histogram of samples only estimates finitely many cells.", "anchors": ["ebsdtorch/s2_and_so3/sampling.py:so3_uniform_quat"]}
{"id": "C163", "title": "Area of directions is the same about every axis; rosca_lambert keeps it in every frame", "statement": "For every measurable set of directions the area computed from height and azimuth about the z axis equals three times the volume of the cone over the set, so it does not change when qu_apply turns the set by a unit quaternion; the whole sphere has 4 pi. Hence rosca_lambert after any rotation of the frame takes sets of the hemisphere about the rotated pole to sets of the square whose area is 2/pi times theirs.", "quantifier": "all measurable sets of directions, all unit quaternions, all measurable regions of the square", "why_tests_cant": "An identity between areas of arbitrary sets.", "anchors": ["ebsdtorch/s2_and_so3/sphere.py:rosca_lambert", "ebsdtorch/s2_and_so3/quaternions.py:qu_apply"]}
{"id": "C164", "title": "Uniform orientations turn any direction into a uniform direction", "statement": "If a unit quaternion is uniformly distributed, qu_apply turns any fixed unit direction into a uniformly distributed direction: the measure of the quaternions that turn the direction into a measurable set is pi/2 times the area of the set. In particular a direction turned by an orientation drawn with so3_uniform_quat hits a set with probability its area divided by 4 pi (a random texture has uniform pole figures).", "quantifier": "all unit directions, all measurable sets of directions", "why_tests_cant": "Equality of two distributions on every measurable set.", "anchors": ["ebsdtorch/s2_and_so3/quaternions.py:qu_apply", "ebsdtorch/s2_and_so3/sampling.py:so3_uniform_quat"]}
{"id": "C165", "title": "Reduction of directions keeps the uniform distribution up to the tolerance", "statement": "For every Laue class and both precisions: the directions on which s2_to_fz_laue raises cover at most the order of the Laue group times 144 EPS of the sphere; for every measurable set B the area of the directions that are reduced into B differs from the order of the group times the area of B within the sector by at most the order of the group times 144 EPS.", "quantifier": "all 11 Laue classes, both precisions, all measurable sets of directions", "why_tests_cant": "A statement about areas of sets of directions; the failing directions form a set of tiny area that samples miss.", "anchors": ["ebsdtorch/s2_and_so3/laue_fz_s2.py:s2_to_fz_laue"]}
{"id": "C166", "title": "s2_fibonacci spreads its points evenly over the sphere", "statement": "For every n and both modes, the number of the n points of s2_fibonacci whose height lies in [a, b) and azimuth in [c, d) differs from n times the share of that region in the area of the sphere by at most 25 sqrt(n) + 432 (25 sqrt(n) + 5 in the default mode). For every open set of directions the number of points in it is, for all large n, at least n times (its share of the sphere minus delta), for every closed set at most n times (its share plus delta).", "quantifier": "all n, both modes, all regions bounded by circles of latitude and meridians, all open and all closed sets of directions, all delta > 0", "why_tests_cant": "A discrepancy bound for all n and all regions: it rests on the badly approximable golden ratio, not on samples.", "anchors": ["ebsdtorch/s2_and_so3/sampling.py:s2_fibonacci"]}
{"id": "C167", "title": "The Fibonacci sample of a fundamental sector is even and of the requested size", "statement": "For every Laue class and both precisions: sample_s2_fz_laue_fibonacci asked for t directions returns, for all large t, between t(1 - delta) and t(1 + 36 order EPS / pi + delta) of them; every open part of the sector gets at least its share of t minus delta t, every closed set of directions at most its share plus delta t.", "quantifier": "all 11 Laue classes, both precisions, all delta > 0, all open and closed sets of directions, all large requested sizes", "why_tests_cant": "A limit statement over all sizes and all sets.", "anchors": ["ebsdtorch/s2_and_so3/laue_fz_s2.py:sample_s2_fz_laue_fibonacci"]}
{"id": "C168", "title": "The Rosca-Lambert sample of a fundamental sector is even and twice the requested size", "statement": "For every Laue class and both precisions: sample_s2_fz_laue_rosca asked for t directions returns, for all large t, between 2t(1 - delta) and 2t(1 + 36 order EPS / pi + delta) of them (the code divides the multiplicity of the whole sphere over a grid of one hemisphere); every open part of the sector gets at least twice its share of t minus 2 delta t, every closed set of directions at most twice its share plus 2 delta t.", "quantifier": "all 11 Laue classes, both precisions, all delta > 0, all open and closed sets of directions, all large requested sizes", "why_tests_cant": "A limit statement over all sizes and all sets.", "anchors": ["ebsdtorch/s2_and_so3/laue_fz_s2.py:sample_s2_fz_laue_rosca"]}
{"id": "C169", "title": "so3_cu_rand draws orientations uniformly up to the accuracy of its conversion", "statement": "When the three numbers of a row are independent and uniform on [0, 1), the probability that so3_cu_rand returns an orientation in a set S is at most the rotation-invariant measure of the orientations within 4e-7 rad (float32; 2e-8 rad in float64) of S, divided by pi^2, the measure of all orientations; and at least that of the orientations all of whose neighbours within this distance lie in S. Only around the identity, where rotations of less than 0.0021 rad are returned as the identity, there is an excess or deficit of at most 2e-8/pi^2.", "quantifier": "all sets of quaternions, both precisions, every tie order of the sort", "why_tests_cant": "Two-sided bounds for the probability of every set of orientations.", "anchors": ["ebsdtorch/s2_and_so3/sampling.py:so3_cu_rand", "ebsdtorch/s2_and_so3/orientations.py:cu2qu"]}
{"id": "C170", "title": "The grid of so3_cubochoric_grid is spread uniformly over the orientations", "statement": "As the edge length grows, the share of the members of so3_cubochoric_grid in an open set of orientations is in the limit at least, and in a closed set at most, the probability that so3_cu_rand (C169) draws into the set; so it is the rotation-invariant measure of the set over pi^2, up to a displacement of 4e-7 rad (float32; 2e-8 rad in float64) and the small rotations that become the identity.", "quantifier": "all open and all closed sets of orientations, both precisions, all tolerances, all grids from some size on", "why_tests_cant": "A limit over all grid sizes, for every open or closed set.", "anchors": ["ebsdtorch/s2_and_so3/sampling.py:so3_cubochoric_grid", "ebsdtorch/s2_and_so3/orientations.py:cu2qu"]}
{"id": "C171", "title": "so3_fibonacci is spread uniformly over the orientations in the limit", "statement": "As the number of points grows, the share of the points of so3_fibonacci in an open set of unit quaternions is in the limit at least, and in a closed set at most, the rotation-invariant measure of the set over 2 pi^2, up to a displacement of 5e-24 on the unit sphere: the second constant of the spiral has 25 digits, so the last angle takes only 1.5e24 values.", "quantifier": "all open and all closed sets of unit quaternions, all tolerances, all sample sizes from some size on", "why_tests_cant": "A limit over all sample sizes, for every open or closed set; it rests on the irrationality of the square root of two.", "anchors": ["ebsdtorch/s2_and_so3/sampling.py:so3_fibonacci"]}
{"id": "C172", "title": "Rounding does not move directions out of the sector of s2_in_fz_laue", "statement": "In floating-point arithmetic s2_in_fz_laue accepts every unit direction of the sector of its Laue class, and an accepted direction lies in the sector up to the tolerance of the code and a few units of rounding; images computed by qu_apply for a direction inside the sector are accepted.", "quantifier": "all precisions, all roundings to nearest, all tolerances, all directions, all Laue classes", "why_tests_cant": "The rounding that pushes a third component above 1, where acos is NaN, happens for a few directions in a hundred thousand; acceptance must hold for every direction.", "anchors": ["ebsdtorch/s2_and_so3/laue_fz_s2.py:s2_in_fz_laue", "ebsdtorch/s2_and_so3/laue_fz_s2.py:s2_to_fz_laue", "ebsdtorch/s2_and_so3/quaternions.py:qu_apply"]}
{"id": "C173", "title": "apply_geometry gives the direction of a detector pixel", "statement": "apply_geometry returns, for every pixel, the unit vector along rotation * pixel + translation (NaN only when that point is the source itself); pixels of a detector whose plane does not contain the source - every Bruker geometry with non-zero detector distance - all have a direction, and different ones; the directions do not depend on the unit of length and turn with the sample frame.", "quantifier": "all pixel coordinates, matrices, translations, Bruker geometries", "why_tests_cant": "the pixel coordinates and geometries form a continuum; NaN and coinciding directions occur on sets of measure zero that samples miss", "anchors": ["ebsdtorch/ebsd/fitting.py:apply_geometry", "ebsdtorch/ebsd/fitting.py:bruker_geometries_to_SE3"]}
{"id": "C174", "title": "OnlineCovMatrix eigenvectors are principal components", "statement": "After any sequence of batches the last k columns returned by OnlineCovMatrix.get_eigenvectors are orthonormal and, among all systems of k orthonormal vectors, capture the largest sum of squared deviations of all observations from their mean and leave the smallest squared distance of the observations to their span (for correlation=True: of the deviations in units of the standard deviation of each feature), however the observations were batched.", "quantifier": "all batch sequences, all feature counts, all k, all results torch.linalg.eigh may return", "why_tests_cant": "optimality is against all orthonormal systems, and the batching history is unbounded", "anchors": ["ebsdtorch/utils/pca_covmat.py:OnlineCovMatrix.get_eigenvectors", "ebsdtorch/utils/pca_covmat.py:OnlineCovMatrix.get_covmat", "ebsdtorch/utils/pca_covmat.py:update_covmat"]}
