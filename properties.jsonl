{"id": "C01", "title": "UTM zone is the 6-degree band containing the longitude", "statement": "For every longitude in [-180, 180) the UTM zone used when none is given is the integer z in 1..60 with -180+6(z-1) <= lon < -180+6z, and longitude 180 gets zone 60; the zone number is monotone in longitude.", "quantifier": "every real longitude in [-180, 180]", "why_tests_cant": "The input domain is infinite (all reals / all lengths); a unit test samples a handful of points. Off-by-one at band edges is exactly what sampling misses.", "anchors": ["src/solarspatialtools/spatial.py:_calc_zone", "src/solarspatialtools/spatial.py:latlon2utm"]}
{"id": "C02", "title": "Array lat/lon to UTM conversion is the elementwise scalar conversion", "statement": "latlon2utm on sequences of equal length returns, row by row and in input order, exactly the scalar result for each pair (own zone and own hemisphere per row when zone is None); unequal lengths raise ValueError; the Pandas form has the same rows and carries the index of lat (an empty Series raises ValueError).", "quantifier": "every list of latitude/longitude pairs of every length, every zone argument, every projection routine", "why_tests_cant": "Ranges over all lengths and all element combinations (mixed zones, mixed hemispheres).", "anchors": ["src/solarspatialtools/spatial.py:latlon2utm", "src/solarspatialtools/spatial.py:utm2latlon"]}
{"id": "C03", "title": "UTM round trip", "statement": "If the projection's inverse undoes its forward map for a given (zone, south), then utm2latlon(latlon2utm(lat, lon) with the returned zone and south = (lat < 0)) returns (lat, lon); for arrays it does so for each row whose zone and hemisphere equal the single zone/south passed.", "quantifier": "every latitude/longitude, every zone argument, every projection satisfying the inverse law, every list length", "why_tests_cant": "The input domain is infinite (all reals / all lengths); a unit test samples a handful of points.", "anchors": ["src/solarspatialtools/spatial.py:latlon2utm", "src/solarspatialtools/spatial.py:utm2latlon"]}
{"id": "C04", "title": "Local coordinate system round trip", "statement": "lcs2latlon(latlon2lcs(lat, lon, origin, zone=z), origin, zone=z) = (lat, lon) for every point and origin. (Users rely on it for every zone argument; the code honours it when target and origin share zone and hemisphere, and breaks it for an explicit zone different from the origin's own zone because the origin is re-projected without the zone.)", "quantifier": "every target, origin, optional zone, every invertible projection", "why_tests_cant": "The input domain is infinite (all reals / all lengths); a unit test samples a handful of points. The repository's tests only use zone=None.", "anchors": ["src/solarspatialtools/spatial.py:latlon2lcs", "src/solarspatialtools/spatial.py:lcs2latlon"]}
{"id": "C05", "title": "Local coordinates: origin at zero and origin-independent differences", "statement": "In one zone and hemisphere: latlon2lcs of the origin is (0, 0), and the difference of the local coordinates of two points does not depend on the chosen origin (it equals their UTM difference).", "quantifier": "every pair of points, every pair of origins, every explicit zone, every projection", "why_tests_cant": "The input domain is infinite (all reals / all lengths); a unit test samples a handful of points.", "anchors": ["src/solarspatialtools/spatial.py:latlon2lcs"]}
{"id": "C06", "title": "LCS zone is obtained from the origin when not specified", "statement": "With zone=None, latlon2lcs expresses both the target and the origin in the zone of the ORIGIN longitude (docstring). The code projects the target in its own zone, so the statement holds only when both longitudes fall in one zone.", "quantifier": "every target and origin, every projection", "why_tests_cant": "Fails only across zone boundaries; tests use one site.", "anchors": ["src/solarspatialtools/spatial.py:latlon2lcs"]}
{"id": "C07", "title": "Flat-earth conversion is an affine, strictly orientation-preserving map anchored at the reference", "statement": "In exact arithmetic: for method 'matlab', lla2flat maps (latref, lonref) to (0, 0), dN is strictly increasing in latitude and independent of longitude, dE is strictly increasing in longitude when |latref| < 90 and independent of latitude; the map is affine (differences of outputs depend only on differences of inputs) and injective; meridional radius <= prime-vertical radius; any method string other than 'matlab'/'tmerc' raises ValueError.", "quantifier": "every latitude/longitude/reference", "why_tests_cant": "The input domain is infinite (all reals / all lengths); a unit test samples a handful of points.", "anchors": ["src/solarspatialtools/spatial.py:lla2flat"]}
{"id": "C08", "title": "Polar/rectangular conversion are mutually inverse", "statement": "In exact arithmetic: pol2rect(rect2pol(x, y)) = (x, y) for all x, y; rect2pol(pol2rect(r, t)) = (r, t) for r > 0 and t in (-pi, pi]; rect2pol returns r >= 0 and t in (-pi, pi]; negative r in pol2rect is the rotation by pi of |r|.", "quantifier": "every real pair", "why_tests_cant": "The input domain is infinite (all reals / all lengths); a unit test samples a handful of points.", "anchors": ["src/solarspatialtools/spatial.py:rect2pol", "src/solarspatialtools/spatial.py:pol2rect"]}
{"id": "C09", "title": "Rotation is an isometry and a group action", "statement": "In exact arithmetic: rotate_vector preserves magnitude and dot products, rotations compose by adding angles, rotation by 0 is the identity, by -t undoes t, and rotates the polar angle: rotate(pol2rect(r, t), s) = pol2rect(r, t+s); the multi-point form rotates each column.", "quantifier": "every vector, every angle, every number of points", "why_tests_cant": "The input domain is infinite (all reals / all lengths); a unit test samples a handful of points.", "anchors": ["src/solarspatialtools/spatial.py:rotate_vector"]}
{"id": "C10", "title": "Vector projection depends only on direction and decomposes vectors", "statement": "In exact arithmetic: project_vectors is linear in the vectors, invariant to positive rescaling of the direction, changes sign when the direction is reversed, satisfies |proj| <= |v| with equality iff v is parallel to the direction, and its squares along two perpendicular directions sum to |v|^2.", "quantifier": "every list of vectors and every nonzero direction", "why_tests_cant": "The input domain is infinite (all reals / all lengths); a unit test samples a handful of points.", "anchors": ["src/solarspatialtools/spatial.py:project_vectors", "src/solarspatialtools/spatial.py:unit", "src/solarspatialtools/spatial.py:magnitude", "src/solarspatialtools/spatial.py:dot"]}
{"id": "C11", "title": "Site vectors are translation invariant and antisymmetric", "statement": "In exact arithmetic: compute_vectors returns one vector per site in order, the vector of the reference site is zero, adding one constant to all coordinates and the reference changes nothing, and v(ref->site_i) - v(ref->site_j) does not depend on the reference; extra components of the reference point are ignored.", "quantifier": "every list of sites, every reference", "why_tests_cant": "The input domain is infinite (all reals / all lengths); a unit test samples a handful of points.", "anchors": ["src/solarspatialtools/spatial.py:compute_vectors"]}
{"id": "C12", "title": "Perpendicular-line intersection solves the geometric problem", "statement": "In exact arithmetic: for non-parallel A and B (cross product nonzero) compute_intersection returns the unique C with C.A = |A|^2 and C.B = |B|^2; if they are parallel the returned coordinates are never finite numbers; scaling A and B by s scales C by s; rotating both rotates C; swapping A and B leaves C unchanged.", "quantifier": "every pair of plane vectors (row by row for arrays)", "why_tests_cant": "The input domain is infinite (all reals / all lengths); a unit test samples a handful of points.", "anchors": ["src/solarspatialtools/spatial.py:compute_intersection"]}
{"id": "C13", "title": "Space-time distance is a pseudo-metric consistent with cloud drift", "statement": "In exact arithmetic: the matrix from spacetime_distances is n_sites*n_times square, with nonnegative entries, zero diagonal, symmetry and triangle inequality; entry ((site i, time a), (site j, time b)) sits at row i*n_times+a, column j*n_times+b and equals the distance between the drift-compensated positions; at equal times it is the plain spatial distance; for one site it is cs*|t_a - t_b| for cs >= 0.", "quantifier": "every list of sites, every nonempty list of times, every cloud speed and direction", "why_tests_cant": "The input domain is infinite (all reals / all lengths); a unit test samples a handful of points.", "anchors": ["src/solarspatialtools/spatial.py:spacetime_distances"]}
{"id": "C14", "title": "Space-time distance is invariant under translation and time origin, and zero along the drift", "statement": "In exact arithmetic: shifting all coordinates by a constant or shifting all times by a constant leaves spacetime_distances unchanged; a site displaced by velocity*(t_b - t_a) downstream at time t_b is at distance zero from the upstream site at t_a.", "quantifier": "every configuration of sites/times/speed/direction", "why_tests_cant": "The input domain is infinite (all reals / all lengths); a unit test samples a handful of points.", "anchors": ["src/solarspatialtools/spatial.py:spacetime_distances"]}
{"id": "C15", "title": "Remapping positions moves exactly the listed rows", "statement": "remap_positions gives each row named by a first element the ORIGINAL data of the row named by the last matching pair's second element, leaves every other row and every unselected column unchanged, never modifies its input, and raises KeyError if a second element is unknown.", "quantifier": "every data table with unique labels, every remap list, every column selection", "why_tests_cant": "All lists, all label sets, simultaneous (swap/cycle) semantics.", "anchors": ["src/solarspatialtools/field.py:remap_positions"]}
{"id": "C16", "title": "A bijective remap permutes the rows", "statement": "If the remap list is a permutation of the labels, the rows of the output of remap_positions are a permutation of the input rows, remapping with the inverse pairs restores the input, and the identity remap changes nothing.", "quantifier": "every table, every permutation of its labels", "why_tests_cant": "Every permutation of every size.", "anchors": ["src/solarspatialtools/field.py:remap_positions"]}
{"id": "C17", "title": "Cascaded remap equals remapping twice", "statement": "remap_positions(remap_positions(d, r1), r2) = remap_positions(d, cascade_remap(r1, r2)) whenever both remaps cover the same labels of the table; cascade_remap is associative and has the identity remap as unit; it raises KeyError when a key of r1 is missing in r2 or r2 points outside r1; the output is sorted by key with one entry per key.", "quantifier": "every table and every pair (triple) of remaps on its labels", "why_tests_cant": "All permutations / maps of every size.", "anchors": ["src/solarspatialtools/field.py:cascade_remap", "src/solarspatialtools/field.py:remap_positions"]}
{"id": "C18", "title": "Position assignment is an optimal bijection", "statement": "For NaN-free predicted positions of the same length as the original, assign_positions returns a remap in which every label occurs exactly once on each side, sorted by the first element, whose total distance from predicted to assigned original positions is minimal over all permutations.", "quantifier": "every list of original/predicted positions, every assignment solver that is correct", "why_tests_cant": "Optimality over n! permutations for every n.", "anchors": ["src/solarspatialtools/field.py:assign_positions"]}
{"id": "C19", "title": "Assignment leaves unpredicted (NaN) entities in place", "statement": "When some predicted positions are NaN (index labels unique and shared), every entity with a NaN prediction is mapped to itself, the remaining entities are permuted among themselves optimally, and the output remap is a bijection in original order.", "quantifier": "every set of positions, every pattern of NaN predictions", "why_tests_cant": "2^n NaN patterns for every n.", "anchors": ["src/solarspatialtools/field.py:assign_positions"]}
{"id": "C20", "title": "Exact predictions are recovered", "statement": "In exact arithmetic: if the predicted position of each entity is the original position of entity s(entity) for a permutation s and original positions are pairwise distinct, then assign_positions returns exactly that permutation and the remapped table equals the predictions.", "quantifier": "every permutation of every set of distinct positions", "why_tests_cant": "All permutations of all sizes.", "anchors": ["src/solarspatialtools/field.py:assign_positions"]}
{"id": "C21", "title": "Assignment result does not depend on row order conventions", "statement": "assign_positions pairs predictions with originals by label: permuting the rows of predicted_pos does not change the labels' assignment. (The NaN-free branch pairs by position, the NaN branch by label, so the claim fails when index orders differ.)", "quantifier": "every index order", "why_tests_cant": "Needs differing index orders plus NaN/no-NaN; tests share one order.", "anchors": ["src/solarspatialtools/field.py:assign_positions"]}
{"id": "C22", "title": "Predicted position is exact for plane-wave delays", "statement": "In exact arithmetic: if for both cloud vectors the delay of every selected site equals the plane-wave delay of the entity's TRUE position, and the selection excludes the reference itself (or the reference delay is consistent), then compute_predicted_position returns the true position for non-parallel cloud vectors, provided the displacement is not perpendicular to either of them (the singular case is C24). Averages that include the reference (modes 'distance', 'all') shrink the correction by (k-1)/k.", "quantifier": "every layout, every pair of non-parallel cloud vectors, every displacement", "why_tests_cant": "The input domain is infinite (all reals / all lengths); a unit test samples a handful of points.", "anchors": ["src/solarspatialtools/field.py:compute_predicted_position"]}
{"id": "C23", "title": "Down-selection sizes and contents", "statement": "Mode 'coherence' uses the ndownsel-1 best finite-coherence sites below the single best one (which is dropped as 'self'); 'distance' uses the ndownsel nearest sites including the reference; 'all' uses every site; any other mode raises ValueError. With fewer sites than ndownsel all but the best are used.", "quantifier": "every list of coherences (with NaN), every ndownsel >= 1", "why_tests_cant": "All orderings and NaN patterns.", "anchors": ["src/solarspatialtools/field.py:compute_predicted_position"]}
{"id": "C24", "title": "Correctly placed entity yields a finite prediction at its own position", "statement": "In exact arithmetic: if the mean error distances are zero the predicted position equals the plan position. (Violated: a zero error makes the intersection singular and the result NaN.)", "quantifier": "every layout with exactly consistent delays", "why_tests_cant": "Measure-zero input for random tests.", "anchors": ["src/solarspatialtools/field.py:compute_predicted_position", "src/solarspatialtools/spatial.py:compute_intersection"]}
{"id": "C25", "title": "Pair enumeration is complete and duplicate free", "statement": "_get_pairs lists, in lexicographic position order, exactly the unordered pairs i<=j (i<j without replacement) of the points, n(n+1)/2 (n(n-1)/2) of them, restricted to pairs containing at least one reference when references are given; with distinct ids no pair is repeated in either order.", "quantifier": "every list of point ids, every reference set", "why_tests_cant": "All list lengths.", "anchors": ["src/solarspatialtools/cmv.py:_get_pairs", "src/solarspatialtools/cmv.py:compute_cmv"]}
{"id": "C26", "title": "A GOOD pair satisfies every QC condition", "statement": "If the pairwise QC flags a pair GOOD then the sites differ, both signals have standard deviation >= 0.001 (or NaN), the delay is not zero, correlations are not NaN, neither signal is overcast and, for jamaly, variation ratio, correlation and velocity limits all hold; conversely a pair meeting all conditions is GOOD.", "quantifier": "every array of pairs/statistics including NaN and infinite ratios, every option value", "why_tests_cant": "All combinations of 8 conditions with NaN semantics.", "anchors": ["src/solarspatialtools/cmv.py:_pairwise_qc"]}
{"id": "C27", "title": "QC flag precedence", "statement": "Each pair's flag is that of the LAST failing check in the order SAME, NOSIGNAL, NOLAG, LOWCORR(NaN), OVERCAST, LOWVAR_S, LOWCORR, VELLIMIT; a pair of one site with itself under jamaly with minvelocity >= 0 is therefore always VELLIMIT, never SAME; the flag of a pair does not depend on other pairs.", "quantifier": "every pair statistics, every option value", "why_tests_cant": "All condition combinations.", "anchors": ["src/solarspatialtools/cmv.py:_pairwise_qc"]}
{"id": "C28", "title": "Option validation", "statement": "Options are accepted iff every key belongs to the method's option set; user supplied values are kept; missing ones get the documented defaults; unknown methods and keys raise ValueError.", "quantifier": "every method string, every options dictionary", "why_tests_cant": "All key sets.", "anchors": ["src/solarspatialtools/cmv.py:_validate_method_options", "src/solarspatialtools/cmv.py:compute_cmv"]}
{"id": "C29", "title": "A call does not change the caller's options dictionary", "statement": "compute_cmv leaves the caller's options unchanged, so using one dictionary for several calls is the same as using fresh copies. (Violated: defaults are written into the caller's dictionary; jamaly followed by gagne with the same dict raises ValueError.)", "quantifier": "every sequence of calls sharing an options dictionary", "why_tests_cant": "Property of call histories, not of a single call.", "anchors": ["src/solarspatialtools/cmv.py:_validate_method_options", "src/solarspatialtools/cmv.py:_pairwise_qc"]}
{"id": "C30", "title": "Speed is nonnegative, direction in [0, 2pi)", "statement": "In exact arithmetic: whenever compute_cmv returns a numeric velocity it is >= 0 and the direction lies in [0, 2pi); the (speed, direction) normalisation preserves the velocity vector.", "quantifier": "every raw velocity and angle", "why_tests_cant": "The input domain is infinite (all reals / all lengths); a unit test samples a handful of points.", "anchors": ["src/solarspatialtools/cmv.py:compute_cmv"]}
{"id": "C31", "title": "Too few good pairs gives the documented null result", "statement": "compute_cmv returns (0, 0) with flag ALLBAD iff at most one pair remains GOOD after all QC; otherwise the result is computed from exactly the GOOD pairs; reference to pairs not GOOD never influences the vector.", "quantifier": "every flag array, both methods", "why_tests_cant": "All flag patterns.", "anchors": ["src/solarspatialtools/cmv.py:compute_cmv"]}
{"id": "C32", "title": "Gagne correlation threshold selection", "statement": "The gagne method keeps exactly the pairs with peak correlation >= t for t the largest of 0.99, 0.95, 0.9 having at least 12 GOOD pairs (0.9 if none); the overall flag becomes ALLBAD iff fewer than 12 GOOD pairs reach 0.9 (or at most one pair stays GOOD).", "quantifier": "every correlation array with NaN, every flag array", "why_tests_cant": "All counts around 12 at three thresholds.", "anchors": ["src/solarspatialtools/cmv.py:compute_cmv"]}
{"id": "C33", "title": "Gagne method recovers the exact plane-wave velocity", "statement": "In exact arithmetic: if every good pair's delay is the plane-wave delay d.V/|V|^2 for a velocity V and the good pair vectors span the plane, the least-squares solution is unique and the returned speed/direction is exactly |V| and the polar angle of V.", "quantifier": "every set of pair vectors spanning the plane, every nonzero V, every exact least-squares solver", "why_tests_cant": "The input domain is infinite (all reals / all lengths); a unit test samples a handful of points.", "anchors": ["src/solarspatialtools/cmv.py:compute_cmv"]}
{"id": "C34", "title": "Jamaly objective is minimised by the true direction", "statement": "In exact arithmetic: with plane-wave delays (nonzero) the projected velocity variance is zero at the true direction, the projected velocities there are all equal to |V| and hence so is their median; the zero-variance directions are unique up to pi if the pair displacement vectors scaled by delay are not all on one line.", "quantifier": "every set of pair vectors and delays consistent with a velocity", "why_tests_cant": "The input domain is infinite (all reals / all lengths); a unit test samples a handful of points.", "anchors": ["src/solarspatialtools/cmv.py:compute_cmv"]}
{"id": "C35", "title": "Optimal subset returns distinct valid indices and ignores vector length and sign", "statement": "optimum_subset returns min(n, number of vectors) distinct in-range indices; multiplying any vector by a nonzero factor does not change the cost function; the cost is invariant under rotating the ideal set by pi/n.", "quantifier": "every list of nonzero vectors, every n >= 1, every correct assignment solver", "why_tests_cant": "All sizes, all scalings.", "anchors": ["src/solarspatialtools/cmv.py:optimum_subset"]}
{"id": "C36", "title": "Method and backend names are case-insensitively validated", "statement": "compute_cmv raises ValueError for any method other than jamaly/gagne (any case) or backend other than xcorr/tf, before touching data.", "quantifier": "every string", "why_tests_cant": "All strings.", "anchors": ["src/solarspatialtools/cmv.py:compute_cmv"]}
{"id": "C37", "title": "Normalised cross-correlation is bounded", "statement": "In exact arithmetic: with scaling 'coeff' every cross-correlation value lies in [-1, 1]; the autocorrelation at lag zero is 1 for a non-constant signal; a constant signal yields NaN (0/0) rather than a finite number.", "quantifier": "every pair of equal-length real signals", "why_tests_cant": "The input domain is infinite (all reals / all lengths); a unit test samples a handful of points.", "anchors": ["src/solarspatialtools/signalproc.py:correlation", "src/solarspatialtools/signalproc.py:_fftcorrelate"]}
{"id": "C38", "title": "Correlation lag axis and symmetry", "statement": "In exact arithmetic: full cross-correlation has na+nb-1 entries with lags -(nb-1)..na-1 times dt; entry at lag k is sum a[i+k]*b[i]; swapping the signals negates the lags; with scaling 'none' it is bilinear.", "quantifier": "every pair of signals of every length", "why_tests_cant": "All lengths and values.", "anchors": ["src/solarspatialtools/signalproc.py:correlation"]}
{"id": "C39", "title": "FFT-based and direct correlation agree", "statement": "In exact arithmetic: the circular-convolution computation with zero padding used by the fft mode equals the direct correlation, entry by entry, for every lag.", "quantifier": "every pair of equal-length signals", "why_tests_cant": "All lengths and values.", "anchors": ["src/solarspatialtools/signalproc.py:_fftcorrelate", "src/solarspatialtools/signalproc.py:compute_delays"]}
{"id": "C40", "title": "Delay estimation recovers pure shifts", "statement": "In exact arithmetic: if the second signal is the first delayed by m samples with zero padding (finite support inside the record after removing the mean), the cross-correlation delay is +m*dt, and it is antisymmetric when the peak is unique.", "quantifier": "every finitely supported nonzero signal and every shift that keeps its support in the record", "why_tests_cant": "The input domain is infinite (all reals / all lengths); a unit test samples a handful of points.", "anchors": ["src/solarspatialtools/signalproc.py:compute_delays", "src/solarspatialtools/signalproc.py:xcorr_delay"]}
{"id": "C41", "title": "Delay is insensitive to scale and offset", "statement": "In exact arithmetic: cross-correlation delay and coefficient are unchanged when either signal is multiplied by a positive constant or shifted by a constant (with mean removal / coefficient scaling), except through the 1e-10 peak threshold for unscaled correlation.", "quantifier": "every pair of signals, every positive factor, every offset", "why_tests_cant": "The input domain is infinite (all reals / all lengths); a unit test samples a handful of points.", "anchors": ["src/solarspatialtools/signalproc.py:compute_delays"]}
{"id": "C42", "title": "Zero correlation means zero delay", "statement": "when the peak cross-correlation magnitude is below 1e-10 the reported delay is exactly 0; otherwise it is minus the lag of the first maximal entry; reported delays always lie within +/-(n-1)*dt.", "quantifier": "every correlation sequence", "why_tests_cant": "All sequences.", "anchors": ["src/solarspatialtools/signalproc.py:compute_delays"]}
{"id": "C43", "title": "Coherence lies in [0, 1]", "statement": "In exact arithmetic: the averaged coherence |Pxy|^2/(Pxx Pyy) is between 0 and 1 at each frequency with nonzero power, equals 1 for one average or when the output is a scalar multiple of the input, and is symmetric in the signals.", "quantifier": "every pair of frames, window, overlap, detrending and number of averages", "why_tests_cant": "The input domain is infinite (all reals / all lengths); a unit test samples a handful of points.", "anchors": ["src/solarspatialtools/signalproc.py:averaged_tf"]}
{"id": "C44", "title": "Transfer function composes and inverts as expected", "statement": "In exact arithmetic: averaged_tf of a signal with itself is 1 (NaN where there is no power); it is linear in the output; if in each segment the output spectrum is z times the input spectrum (for instance a pure phase delay) the value is z with coherence 1.", "quantifier": "every pair of signals, window, overlap, detrending and number of averages", "why_tests_cant": "The input domain is infinite (all reals / all lengths); a unit test samples a handful of points.", "anchors": ["src/solarspatialtools/signalproc.py:averaged_tf"]}
{"id": "C45", "title": "Transfer-function delay recovers linear phase", "statement": "In exact arithmetic: for a transfer function with the phase of a delay tau (less than half a turn between used bins) 'multi', 'fit' and 'diff' return tau whenever a positive frequency is usable; 'fit' returns the least-squares slope of the unwrapped phase; usable bins are exactly those with coherence above and frequency below the limits; a circular shift by m samples analysed in one block gives m*dt.", "quantifier": "every frequency grid, coherence vector and mask", "why_tests_cant": "The input domain is infinite (all reals / all lengths); a unit test samples a handful of points.", "anchors": ["src/solarspatialtools/signalproc.py:tf_delay"]}
{"id": "C46", "title": "Phase unwrapping", "statement": "In exact arithmetic: np.unwrap-style unwrapping as used returns a phase congruent to its input modulo 2 pi with successive differences in [-pi, pi], and is the identity on sequences with such differences; it recovers any linear phase with slope below pi per sample.", "quantifier": "every finite phase sequence", "why_tests_cant": "The input domain is infinite (all reals / all lengths); a unit test samples a handful of points.", "anchors": ["src/solarspatialtools/signalproc.py:tf_delay"]}
{"id": "C47", "title": "Applying a delay in frequency is a group action", "statement": "In exact arithmetic: apply_delay multiplies by exp(-2 pi i f tau): modulus preserved, delays add, delay 0 is the identity, and delay -tau undoes tau.", "quantifier": "every frequency vector, every delays", "why_tests_cant": "The input domain is infinite (all reals / all lengths); a unit test samples a handful of points.", "anchors": ["src/solarspatialtools/signalproc.py:apply_delay"]}
{"id": "C48", "title": "Plant density profiles are nonnegative and supported near the centres", "statement": "get_1d_plant: for shape square the profile is 1 exactly within half a width of some centre and 0 elsewhere; triangle values lie in [0, width); the gaussian profile is the sum of individual bumps; with width None (width = dx) every centre inside the grid marks exactly one sample; the result does not depend on the order of centres (except overlapping triangles, where the last wins); invalid shape raises ValueError.", "quantifier": "every list of centres, width, grid step, extent", "why_tests_cant": "All lists and overlaps.", "anchors": ["src/solarspatialtools/signalproc.py:get_1d_plant"]}
{"id": "C49", "title": "Cloud advection filter is a passive low-pass", "statement": "In exact arithmetic: the CAM filter of a nonnegative nonzero plant profile has gain 1 at f=0, magnitude <= 1 everywhere, Hermitian symmetry H(-f) = conj H(f), reversing the cloud speed conjugates it, and scaling the profile leaves it unchanged.", "quantifier": "every nonnegative profile, every length", "why_tests_cant": "The input domain is infinite (all reals / all lengths); a unit test samples a handful of points.", "anchors": ["src/solarspatialtools/signalproc.py:plant1d_to_camfilter", "src/solarspatialtools/signalproc.py:get_camfilter"]}
{"id": "C50", "title": "CAM filter has zero phase for a symmetric plant", "statement": "In exact arithmetic: a plant profile symmetric about x=0 gives a real filter. (Holds when the grid is x_min = -N dx/2; for odd extents the grid is shifted by one step and a spurious delay dx/V appears.)", "quantifier": "every symmetric profile on the produced grid, every extent", "why_tests_cant": "Odd/even extents and all profiles.", "anchors": ["src/solarspatialtools/signalproc.py:plant1d_to_camfilter", "src/solarspatialtools/signalproc.py:get_1d_plant"]}
{"id": "C51", "title": "Filter application is linear and unity filter is the identity", "statement": "In exact arithmetic: apply_filter with an all-ones filter returns the input series; it is linear in the series; DC gain 1 preserves the mean; it raises ValueError exactly when some frequency of the data's transform, negative ones included, lies outside the range of the filter's frequencies.", "quantifier": "every series and filter", "why_tests_cant": "The input domain is infinite (all reals / all lengths); a unit test samples a handful of points.", "anchors": ["src/solarspatialtools/signalproc.py:apply_filter", "src/solarspatialtools/signalproc.py:interp_tf"]}
{"id": "C52", "title": "Marcos filter is a monotone first-order low pass", "statement": "In exact arithmetic: gain 1 at f=0, magnitude strictly decreasing in |f|, equal to 1/sqrt(2) at the cutoff 0.02/sqrt(area), and larger plants filter at least as much at each frequency.", "quantifier": "every positive area and every frequency", "why_tests_cant": "The input domain is infinite (all reals / all lengths); a unit test samples a handful of points.", "anchors": ["src/solarspatialtools/signalproc.py:get_marcosfilter"]}
{"id": "C53", "title": "Transfer-function interpolation is bounded by and exact at samples", "statement": "In exact arithmetic: interp_tf reproduces the transfer function at its own frequencies, between samples the magnitude is the linear interpolation of the neighbouring magnitudes, a frequency outside the range raises ValueError, and the order of the rows does not matter.", "quantifier": "every frequency grid and transfer function", "why_tests_cant": "The input domain is infinite (all reals / all lengths); a unit test samples a handful of points.", "anchors": ["src/solarspatialtools/signalproc.py:interp_tf"]}
{"id": "C54", "title": "Frequency cleaning blanks exactly the wrap-around label", "statement": "cleanfreq replaces exactly one index label, the one at position len//2 (the first, most negative frequency of an even-length fft grid; the highest positive one for odd length), leaving all values and other labels unchanged; it acts on its argument and returns None although the docstring promises the signal.", "quantifier": "every frame", "why_tests_cant": "All indices.", "anchors": ["src/solarspatialtools/signalproc.py:cleanfreq"]}
{"id": "C55", "title": "Error metric inequalities", "statement": "In exact arithmetic: rmse >= mae >= |mbe|; rmse^2 = mse = variance of the error + mbe^2; all are zero iff the series agree (mbe: only if direction); rmse and mae are symmetric and satisfy the triangle inequality, mbe is antisymmetric and additive.", "quantifier": "every pair/triple of nonempty equal-length series", "why_tests_cant": "The input domain is infinite (all reals / all lengths); a unit test samples a handful of points.", "anchors": ["src/solarspatialtools/stats.py:rmse", "src/solarspatialtools/stats.py:mse", "src/solarspatialtools/stats.py:mae", "src/solarspatialtools/stats.py:mbe"]}
{"id": "C56", "title": "Error metrics are translation and scale covariant", "statement": "In exact arithmetic: adding one constant to both series changes no metric; multiplying both by c multiplies rmse and mae by |c|, mse by c^2 and mbe by c; permuting timestamps of both series changes nothing.", "quantifier": "every pair of series, every constant, every permutation", "why_tests_cant": "The input domain is infinite (all reals / all lengths); a unit test samples a handful of points.", "anchors": ["src/solarspatialtools/stats.py"]}
{"id": "C57", "title": "Variability score is the maximal ramp times probability of larger ramps", "statement": "In exact arithmetic: variability_score equals the maximum over ramps r of |r| times (number of strictly larger ramps + (ties-1)/2)/n; it is >= 0, NaN without any ramp, zero for a single one, bounded by (n-1)/n times the maximal ramp, scales with |c|, and is unchanged under offset; pct multiplies by 1/10.", "quantifier": "every series with NaN gaps, every tau", "why_tests_cant": "The input domain is infinite (all reals / all lengths); a unit test samples a handful of points.", "anchors": ["src/solarspatialtools/stats.py:variability_score"]}
{"id": "C58", "title": "DARR is total variation", "statement": "In exact arithmetic: darr is >= 0, zero iff the series is constant along tau-steps, >= |last - first| for tau=1, subadditive, equals last-first for a monotone series, scales with |c|, adds over concatenation at a shared sample; blanking or leaving out samples never increases it, reversing time does not change it, darr over tau steps is at most tau times that over one; pct multiplies by 1/10; with a non-Pandas series raises TypeError.", "quantifier": "every series, every tau", "why_tests_cant": "The input domain is infinite (all reals / all lengths); a unit test samples a handful of points.", "anchors": ["src/solarspatialtools/stats.py:darr"]}
{"id": "C59", "title": "Variability index bounds", "statement": "In exact arithmetic: variability_index of the clear sky with itself is 1, it is nonnegative and positive as soon as the GHI has a step, lies below 1 iff the GHI path is shorter, is at least (n*dt)/path length of clear sky, and increases when ramp magnitudes increase; against a clear sky of constant slope and the same net change it is at least 1; norm multiplies by sqrt(dt).", "quantifier": "every pair of series of equal length and positive time step", "why_tests_cant": "The input domain is infinite (all reals / all lengths); a unit test samples a handful of points.", "anchors": ["src/solarspatialtools/stats.py:variability_index"]}
{"id": "C60", "title": "Averaging over tau timesteps averages consecutive groups of tau samples", "statement": "In exact arithmetic: on a regular index starting at a multiple of tau*dt after midnight, moving_avg=True with tau>1 yields the metric of the means of consecutive groups of tau samples (the last group may be shorter); averaging never increases DARR of a gap-free series. (Violated if tau*dt is not a whole number of seconds: the bin is int(tau*dt) seconds, so half-second samples with tau=3 are averaged in pairs, and bins below a second raise.)", "quantifier": "every regular series, tau and dt", "why_tests_cant": "All lengths and alignments.", "anchors": ["src/solarspatialtools/stats.py:variability_score", "src/solarspatialtools/stats.py:darr"]}
{"id": "C61", "title": "Quantile summary is causal", "statement": "calc_quantile's value on day D depends only on data stamped between D - n_days and midnight of D (inclusive), never on later data; days before the first complete window are NaN; output has exactly the input's index and one column named <input>_quant.", "quantifier": "every time series, every window length and quantile", "why_tests_cant": "Non-interference over all future values.", "anchors": ["src/solarspatialtools/stats.py:calc_quantile"]}
{"id": "C62", "title": "Quantile output is within the data range for that time of day", "statement": "In exact arithmetic: each non-NaN output lies between the minimum and maximum of the windowed values at that time of day, is monotone in the quantile level, and equals the common value if all are equal.", "quantifier": "every window and quantile in [0,1]", "why_tests_cant": "The input domain is infinite (all reals / all lengths); a unit test samples a handful of points.", "anchors": ["src/solarspatialtools/stats.py:calc_quantile"]}
{"id": "C63", "title": "Clear-sky index is bounded", "statement": "In exact arithmetic: clearsky_index values are NaN or within [0, max]; zero clear-sky gives 0; for DataFrames the same bound given by the user applies. (Violated: the DataFrame branch always clips at 2.)", "quantifier": "every ghi/clearsky including NaN and zero, every maximum", "why_tests_cant": "All values and both input kinds.", "anchors": ["src/solarspatialtools/irradiance.py:clearsky_index"]}
{"id": "C64", "title": "Random field scaling interpolates within bounds", "statement": "In exact arithmetic: _random_at_scale returns values between the minimum and maximum of the generated random grid (hence in [0, 1]); the corners of the field are the corners of the grid, and a grid of the final size comes back unchanged.", "quantifier": "every base grid, every requested and final size", "why_tests_cant": "All sizes and values.", "anchors": ["src/solarspatialtools/synthirrad/cloudfield.py:_random_at_scale"]}
{"id": "C65", "title": "Scale weights form a probability vector", "statement": "In exact arithmetic: variability-score weights are positive, sum to 1 and grow with the scale for 0 < vs < 180, are equal at 180, and negative scores are a ValueError; wavelet weights are a probability vector; a stacked field with such weights stays within [0, 1], and with normalize has minimum 0 and maximum 1. (Violated: for vs > 180 all weights are NaN, silently.)", "quantifier": "every vs and scale list, every wavelet table, every random grid", "why_tests_cant": "The input domain is infinite (all reals / all lengths); a unit test samples a handful of points.", "anchors": ["src/solarspatialtools/synthirrad/cloudfield.py:_calc_vs_weights", "src/solarspatialtools/synthirrad/cloudfield.py:_calc_wavelet_weights", "src/solarspatialtools/synthirrad/cloudfield.py:_stack_random_field"]}
{"id": "C66", "title": "Clear mask hits the requested clear fraction", "statement": "In exact arithmetic: for a field of n distinct values floor(q(n-1))+1 cells are clear, less than one cell from the request; clear cells are those of lowest value (monotone in the field); an accepted mask is always within 0.1 % of the request; fractions outside [0, 1] are a ValueError. (Violated as a promise for every field: small fields, e.g. one half of five cells, fail with AssertionError; from q(n-1) >= 1000 on every field of distinct values is accepted.)", "quantifier": "every field (distinct values or with ties), every fraction", "why_tests_cant": "All fields.", "anchors": ["src/solarspatialtools/synthirrad/cloudfield.py:_calc_clear_mask"]}
{"id": "C67", "title": "Edges border clear and cloudy cells", "statement": "In exact arithmetic: every cell marked as edge has both kinds of cells in its 3x3 neighbourhood; exchanging clear and cloudy changes nothing; a cell on a one-sided border is an edge; the broadened mask marks exactly the cells whose filter window holds an edge; a uniform mask has no edges. (Violated for tiny clouds: a one-cell cloud is not an edge cell.)", "quantifier": "every mask, every cell, every filter size up to 316", "why_tests_cant": "All masks.", "anchors": ["src/solarspatialtools/synthirrad/cloudfield.py:_find_edges"]}
{"id": "C68", "title": "Scaled field has the requested mean and keeps clear cells at 1", "statement": "In exact arithmetic: after _scale_field_lave the mean clear-sky index equals ktmean whenever clear and edge cells alone stay below the target (otherwise the mean is at least ktmean and clouds stay in [0, 1]), clear cells are exactly 1 and other edges lie in [1, ktmax].", "quantifier": "every field, mask, mean, max", "why_tests_cant": "The input domain is infinite (all reals / all lengths); a unit test samples a handful of points.", "anchors": ["src/solarspatialtools/synthirrad/cloudfield.py:_scale_field_lave"]}
{"id": "C69", "title": "Basic scaling matches mean and range", "statement": "In exact arithmetic: _scale_field_basic reaches the requested mean exactly unless it warns, keeps clear cells at 1, edges in [1, ktmax] and clouds in [kt1pct, 1]. (Violated: an outlying value pushes an edge above ktmax, and clouds can exceed 1 without a warning.)", "quantifier": "every field and target", "why_tests_cant": "The input domain is infinite (all reals / all lengths); a unit test samples a handful of points.", "anchors": ["src/solarspatialtools/synthirrad/cloudfield.py:_scale_field_basic"]}
{"id": "C70", "title": "Field advection: a site further along the field sees the signal earlier", "statement": "In exact arithmetic: get_positional_ts for a site k cells further along x returns the same series k samples earlier (the clouds come from larger x); sample i is the field value i cells further along; a column outside the field is an IndexError.", "quantifier": "every field, positions and shift with nonnegative coordinates", "why_tests_cant": "All fields and shifts.", "anchors": ["src/solarspatialtools/synthirrad/cloudfield.py:get_positional_ts"]}
{"id": "C71", "title": "Mixture CDF is a distribution function", "statement": "In exact arithmetic: on every grid the reported density is the mixture density of the given normal components, and the CDF is the normalised running sum of the density: strictly increasing, in (0, 1], ending at exactly 1; a nonpositive variance raises ValueError.", "quantifier": "every non-empty grid, every number of components with positive variances and nonnegative weights, not all zero", "why_tests_cant": "The input domain is infinite (all reals / all lengths); a unit test samples a handful of points.", "anchors": ["src/solarspatialtools/synthirrad/copula.py:_gmdistribution"]}
{"id": "C72", "title": "Inverse sampling is monotone and bounded", "statement": "In exact arithmetic: _inverse_sample is monotone in the uniform sample, returns values within [-2, 2], and returns the padding values -2 / 2 for samples below 0 / above 1.", "quantifier": "every grid within [-2, 2], every nondecreasing CDF array in [0, 1] (including repeated values), every real sample", "why_tests_cant": "The input domain is infinite (all reals / all lengths); a unit test samples a handful of points.", "anchors": ["src/solarspatialtools/synthirrad/copula.py:_inverse_sample"]}
{"id": "C73", "title": "Mixture parameters reproduce the requested mean", "statement": "In exact arithmetic: w1*mu1 + w2*mu2 equals the requested mean clear-sky index with weights in [0,1] summing to one, both variances positive and bounded by the squared plateau parameters, and the cloudy weight does not grow with the mean; the mixture distribution is then well formed on every grid.", "quantifier": "every real mean clear-sky index and every parameter dictionary with comp[0] in [0,1] and non-zero plateau deviations", "why_tests_cant": "The input domain is infinite (all reals / all lengths); a unit test samples a handful of points.", "anchors": ["src/solarspatialtools/synthirrad/copula.py:_process_params"]}
{"id": "C74", "title": "Copula covariance is a valid correlation matrix", "statement": "In exact arithmetic: the matrix exp(-p*D) for space-time distances D and p > 0 is symmetric with unit diagonal, entries in (0, 1], decreasing in distance and positive semidefinite.", "quantifier": "every site layout, time list, cloud velocity and decay parameter", "why_tests_cant": "PSD for every finite configuration in the plane is a theorem of Schoenberg, not something sampling can settle.", "anchors": ["src/solarspatialtools/synthirrad/copula.py:_space_time_copula", "src/solarspatialtools/spatial.py:spacetime_distances"]}
{"id": "C75", "title": "Coincident drift positions get identical values", "statement": "In exact arithmetic: two (site, time) pairs at zero space-time distance receive equal copula samples for every draw and therefore equal downscaled values.", "quantifier": "every layout, every Gaussian draw, every factorisation of the covariance", "why_tests_cant": "Equality for all draws.", "anchors": ["src/solarspatialtools/synthirrad/copula.py:_space_time_copula", "src/solarspatialtools/synthirrad/copula.py:downscale"]}
{"id": "C76", "title": "Decay parameter is bounded below", "statement": "In exact arithmetic: _exponential_decay_parameter returns max(p K (1-K), 1e-5), does not fall with the quadratic parameter for K in [0,1], and as documented decays slower for higher K. (The last part is violated below K = 1/2.)", "quantifier": "every input", "why_tests_cant": "The input domain is infinite (all reals / all lengths); a unit test samples a handful of points.", "anchors": ["src/solarspatialtools/synthirrad/copula.py:_exponential_decay_parameter"]}
{"id": "C77", "title": "Downscaling preserves mean and sign constraints", "statement": "In exact arithmetic: with scaling enabled each downscaled hour has mean equal to the requested mean whenever the unscaled mean is not zero; with the non-negativity option and a nonnegative requested mean all values are >= 0; without scaling all values are in [-2, 2] (or [0, 2]); row t, column s depends only on the copula sample of time t and site s, monotonically.", "quantifier": "every multivariate normal generator meeting its contract, every layout, time list, velocity, mean and parameter dictionary", "why_tests_cant": "The input domain is infinite (all reals / all lengths); a unit test samples a handful of points.", "anchors": ["src/solarspatialtools/synthirrad/copula.py:downscale"]}
{"id": "C78", "title": "Multi-hour downscaling is hour-wise and validates inputs", "statement": "each hour of downscale_multihour equals downscale of that hour with that hour's parameters; list parameters must match the number of hours. (Partly violated: cloud_spd list length is checked against the type of cloud_dir.)", "quantifier": "every number of hours and parameter lists", "why_tests_cant": "All lengths and mixes of scalar/list arguments.", "anchors": ["src/solarspatialtools/synthirrad/copula.py:downscale_multihour"]}
{"id": "C79", "title": "Download skips existing files and is idempotent", "statement": "re-running the download after a complete run transfers nothing and changes no file; after a crash at any point a re-run completes the set. (Violated for a crash in the middle of one file: the truncated file is never repaired, whatever is re-run.) Files that exist before a run are never modified; blank rows and unreachable URLs are errors.", "quantifier": "every list of URLs, every crash point, every number of re-runs", "why_tests_cant": "Crash points and histories.", "anchors": ["src/solarspatialtools/dataio/iotools.py:download", "src/solarspatialtools/dataio/iotools.py:wget_fromurl"]}
{"id": "C80", "title": "Directory listing filters by extension", "statement": "getfiles with extension .e returns exactly the listed names of the form stem + .e whose stem is not made of dots only (each as often as listed), sorted by code points when asked and then independent of the order of the listing; without extension it returns everything; an extension given without its dot matches nothing.", "quantifier": "every directory listing", "why_tests_cant": "All names.", "anchors": ["src/solarspatialtools/dataio/iotools.py:getfiles"]}
{"id": "C81", "title": "QC masking only ever blanks data", "statement": "flag_qc and null_qc never change a value except to NaN, blank exactly the flagged / below-threshold samples, keep the labels, are idempotent, commute, and a stricter level blanks at least as much.", "quantifier": "every data frame and flags", "why_tests_cant": "All frames.", "anchors": ["src/solarspatialtools/dataio/hope_campaign.py:flag_qc", "src/solarspatialtools/dataio/hope_campaign.py:null_qc"]}
{"id": "C82", "title": "Interpolation only fills short gaps", "statement": "interp_nan fills a gap iff it is at most `limit` samples long and never destroys valid samples. (Violated by the code: the first limit-1 samples of a longer gap are filled, and a gap of 2*limit samples destroys a value after it. Without longer gaps every value is kept and every gap is filled with the straight line.)", "quantifier": "every series with gaps, every limit", "why_tests_cant": "All gap patterns.", "anchors": ["src/solarspatialtools/dataio/hope_campaign.py:interp_nan"]}
{"id": "C83", "title": "HDF conversion survives crashes and re-runs", "statement": "re-running the conversion after a crash or complete run yields the same file as one complete run. (Violated by the NRCAN converter, whose append mode duplicates all rows; the HOPE converter with overwrite gives the same file whatever was there before, and refuses an existing file without it.)", "quantifier": "every crash point and re-run history", "why_tests_cant": "Histories and crash points.", "anchors": ["src/solarspatialtools/dataio/hope_campaign.py:dataset_to_h5", "src/solarspatialtools/dataio/nrcan_data.py:process_files"]}
{"id": "C84", "title": "NRCAN forward fill is causal and lossless on the grid", "statement": "each 10 ms grid sample holds the latest raw measurement at or before it; the grid is the set of multiples of the step around the records. (Violated when the records are exactly 10 ms apart but not on the grid: all values are moved to an earlier label.)", "quantifier": "every raw time series", "why_tests_cant": "All sampling patterns.", "anchors": ["src/solarspatialtools/dataio/nrcan_data.py:process_files"]}
{"id": "C85", "title": "Extra prediction columns are ignored by assign_positions", "statement": "assign_positions uses only the E and N columns of the predictions: the result is the same whatever any further columns contain. (Violated: a NaN in any further column marks the site as unpredicted.)", "quantifier": "every prediction table with any number of further columns", "why_tests_cant": "All contents of further columns.", "anchors": ["src/solarspatialtools/field.py:assign_positions"]}
{"id": "C86", "title": "assign_positions needs as many predictions as original positions", "statement": "with fewer (valid) predictions than original positions the default call raises IndexError. With more predictions than original positions it raises IndexError too, except when the first len(original) predictions are exactly the original positions in some order: a surplus prediction is never silently dropped in favour of an inexact one.", "quantifier": "every pair of tables of different sizes, with a nonempty original table for the surplus case; every optimal solver", "why_tests_cant": "Infinitely many sizes and layouts.", "anchors": ["src/solarspatialtools/field.py:assign_positions"]}
{"id": "C87", "title": "Predicted position does not depend on the column order of pos_utm", "statement": "compute_predicted_position reads the columns E and N by name, so the prediction is the same for tables with columns (E, N) and (N, E). (Violated: the final shift adds the raw row values, so the reference coordinates are swapped.)", "quantifier": "every layout, every data set, every mode", "why_tests_cant": "The tests only use the (E, N) order.", "anchors": ["src/solarspatialtools/field.py:compute_predicted_position"]}
{"id": "C88", "title": "compute_cmv data errors", "statement": "with valid method and backend, compute_cmv raises IndexError iff no reference id is among the points, otherwise KeyError iff some point has no time series, otherwise ValueError iff an option key is not one of the method's, and otherwise returns a result.", "quantifier": "every set of points, series, references and options", "why_tests_cant": "All combinations of missing sites and references.", "anchors": ["src/solarspatialtools/cmv.py:compute_cmv", "src/solarspatialtools/cmv.py:_get_pairs"]}
{"id": "C89", "title": "Default-scaling delay of a shifted pulse", "statement": "In exact arithmetic: if the second signal is a nonzero pulse of the first delayed by m samples (both inside the record), xcorr_delay with the default 'coeff' scaling returns m*dt. (Violated: the mean is removed before the implicit zero padding, so short records of nonzero mean can give a wrong lag, even of the wrong sign.)", "quantifier": "every pulse, shift and record length", "why_tests_cant": "Tests use long, oscillating signals.", "anchors": ["src/solarspatialtools/signalproc.py:xcorr_delay", "src/solarspatialtools/signalproc.py:correlation"]}
{"id": "C90", "title": "Modes 'loop' and 'fft' of compute_delays agree", "statement": "In exact arithmetic: mode only selects an algorithm; delays and all extra results are equal. (Violated when several lags attain the maximum: the modes scan the lags in different orders.)", "quantifier": "every pair of signals, both scalings", "why_tests_cant": "All ties.", "anchors": ["src/solarspatialtools/signalproc.py:compute_delays"]}
{"id": "C91", "title": "mean_corr carries no information with coefficient scaling", "statement": "In exact arithmetic: with 'coeff' scaling compute_delays reports mean_corr = 0 for every pair of non-constant columns in both modes, so the ratio 1 - mean_corr/peak_corr tested by the 'jamaly' quality check of cmv is 1 for every nonzero peak.", "quantifier": "every pair of non-constant signals of equal length", "why_tests_cant": "Floating point hides the exact cancellation; all signals.", "anchors": ["src/solarspatialtools/signalproc.py:compute_delays", "src/solarspatialtools/cmv.py:_pairwise_qc"]}
{"id": "C92", "title": "compute_delays refuses unequal numbers of columns", "statement": "compute_delays raises when the two frames have different numbers of columns. (Violated: in mode 'loop' surplus input columns silently get delay 0.)", "quantifier": "every pair of column counts, both modes and scalings", "why_tests_cant": "All shapes.", "anchors": ["src/solarspatialtools/signalproc.py:compute_delays"]}
{"id": "C93", "title": "_fftcorrelate handles several columns", "statement": "In exact arithmetic: for frames with equal numbers of columns, each row of the result is the correlation of that pair, for both scalings. (Violated for 'coeff': the per-row scale is broadcast along the lag axis, which raises ValueError, or scales wrongly when the number of columns is 2n-1.)", "quantifier": "every number of columns and length", "why_tests_cant": "All shapes.", "anchors": ["src/solarspatialtools/signalproc.py:_fftcorrelate"]}
{"id": "C94", "title": "A constant signal has no delay", "statement": "In exact arithmetic: with 'coeff' scaling a constant column gives peak_corr NaN and delay 0. (Violated in mode 'loop', which reports the largest possible delay (n-1)*dt.)", "quantifier": "every pair of columns one of which is constant", "why_tests_cant": "All lengths.", "anchors": ["src/solarspatialtools/signalproc.py:compute_delays"]}
{"id": "C95", "title": "Correlation options are validated", "statement": "correlation raises ValueError exactly when the lower-cased scaling is not one of its five names; compute_delays (equal column counts) raises ValueError exactly for an unknown mode or a scaling other than 'coeff'/'none' (case-sensitive), and nothing else.", "quantifier": "every string", "why_tests_cant": "All strings.", "anchors": ["src/solarspatialtools/signalproc.py:correlation", "src/solarspatialtools/signalproc.py:compute_delays"]}
{"id": "C96", "title": "Unbiased scaling divides by the overlap fraction", "statement": "In exact arithmetic: the unbiased scalings multiply the biased value at each lag by n/(n-|lag|), keeping its sign and never reducing its magnitude. (Violated when the second signal is longer than the first: at lags beyond n the sign flips, at |lag| = n it divides by zero.)", "quantifier": "every pair of signals of all lengths", "why_tests_cant": "All lengths.", "anchors": ["src/solarspatialtools/signalproc.py:correlation"]}
{"id": "C97", "title": "The delay of an exact linear phase does not depend on the coherence limit", "statement": "In exact arithmetic: for a transfer function with exact linear phase, tf_delay returns the same delay for all coherence limits that leave a usable positive frequency. (Violated by 'fit': the phase is unwrapped over the usable bins only, so one dropped bin can change the delay from 0.4 s to -0.1 s.)", "quantifier": "every transfer function with linear phase, every mask", "why_tests_cant": "All masks.", "anchors": ["src/solarspatialtools/signalproc.py:tf_delay"]}
{"id": "C98", "title": "Method 'multi' ignores NaN bins", "statement": "In exact arithmetic: a bin whose transfer function is NaN is left out and the other bins determine the delay. (Violated: the NaN poisons the unwrapped phase from there on; a NaN in the first bin, which detrend='constant' with a rectangular window always produces, makes the delay 0.)", "quantifier": "every transfer function", "why_tests_cant": "All NaN patterns.", "anchors": ["src/solarspatialtools/signalproc.py:tf_delay"]}
{"id": "C99", "title": "No usable frequency gives NaN", "statement": "In exact arithmetic: a pair without usable positive frequency gets delay NaN. (Violated: 'multi' reports 0, 'fit' reports the start value 1 s if only the zero frequency is usable.)", "quantifier": "every transfer function and limits", "why_tests_cant": "All masks.", "anchors": ["src/solarspatialtools/signalproc.py:tf_delay"]}
{"id": "C100", "title": "Mean coherence lies in [0, 1]", "statement": "In exact arithmetic: compute_delays_tf reports for each pair a mean coherence in [0, 1] when the frequency limit is positive and NaN otherwise.", "quantifier": "every pair of frames and every option", "why_tests_cant": "The input domain is infinite (all reals / all lengths); a unit test samples a handful of points.", "anchors": ["src/solarspatialtools/signalproc.py:compute_delays_tf"]}
{"id": "C101", "title": "compute_delays_tf accepts absent limits like tf_delay", "statement": "In exact arithmetic: coh_limit and freq_limit may be None, as in tf_delay, and delays and masks are those of tf_delay. (Violated: freq_limit=None raises TypeError after all work is done.)", "quantifier": "every pair of frames and every option", "why_tests_cant": "All option combinations.", "anchors": ["src/solarspatialtools/signalproc.py:compute_delays_tf"]}
{"id": "C102", "title": "Correlation extras of compute_delays_tf", "statement": "In exact arithmetic: for non-constant signals of equal length mean_corr is 0, zero_corr is the correlation coefficient, and peak_corr is a number in [-1, 1] exactly if |delay| <= (n-1) dt (else NaN); for a delay of m samples it is the correlation coefficient at lag -m.", "quantifier": "every pair of signals, every delay", "why_tests_cant": "The input domain is infinite (all reals / all lengths); a unit test samples a handful of points.", "anchors": ["src/solarspatialtools/signalproc.py:compute_delays_tf"]}
{"id": "C103", "title": "Column pairing of averaged_tf", "statement": "equal numbers of columns pair up in order, a single column is compared with each column of the other frame, other shapes raise ValueError; names are <input>_<output>; each result column is the one obtained from its two columns alone; with compatible shapes, navgs <= n and overlap in [0,1) the call succeeds.", "quantifier": "every pair of frames", "why_tests_cant": "All shapes.", "anchors": ["src/solarspatialtools/signalproc.py:averaged_tf"]}
{"id": "C104", "title": "averaged_psd honours the scaling argument", "statement": "In exact arithmetic: for a Series as for a DataFrame, 'density' and 'spectrum' differ by fs*sum(w^2)/sum(w)^2. (Violated for a Series: the argument is not passed on.)", "quantifier": "every signal, window and option", "why_tests_cant": "All inputs.", "anchors": ["src/solarspatialtools/signalproc.py:averaged_psd"]}
{"id": "C105", "title": "Power spectra are nonnegative and satisfy Parseval", "statement": "In exact arithmetic: averaged_psd values are nonnegative; with one average, a rectangular window and no detrending, the density times the frequency resolution sums to the mean square of the signal, for even and odd lengths.", "quantifier": "every signal", "why_tests_cant": "The input domain is infinite (all reals / all lengths); a unit test samples a handful of points.", "anchors": ["src/solarspatialtools/signalproc.py:averaged_psd"]}
{"id": "C106", "title": "field.compute_delays reference column", "statement": "In exact arithmetic: an unknown reference raises KeyError; otherwise there is one delay and one mean coherence per column, and the reference's own entry is delay 0 (given any power) and coherence 1 (given power at all frequencies below the limit).", "quantifier": "every frame with distinct column names", "why_tests_cant": "The input domain is infinite (all reals / all lengths); a unit test samples a handful of points.", "anchors": ["src/solarspatialtools/field.py:compute_delays"]}
{"id": "C107", "title": "compute_delays_tf works for all column names", "statement": "In exact arithmetic: methods 'fit' and 'multi' both succeed whenever the transfer functions exist. (Violated by 'fit' when two pairs get the same joined name, e.g. \"a_b\"+\"c\" and \"a\"+\"b_c\".)", "quantifier": "every pair of frames", "why_tests_cant": "All name combinations.", "anchors": ["src/solarspatialtools/signalproc.py:compute_delays_tf"]}
{"id": "C108", "title": "CAM filter is the frequency response of the plant", "statement": "In exact arithmetic: for every plant profile on a regular coordinate grid the CAM filter at frequency f is sum p(x) exp(-2 pi i f x/V)/sum p, the response to a pattern passing with speed V, relative to x=0. (Violated: the phase shift has the wrong sign; right only if the grid starts at -N dx/2. For every odd extent a site at the reference is reported with a delay of one grid step.)", "quantifier": "every profile, grid, speed", "why_tests_cant": "The input domain is infinite (all reals / all lengths); a unit test samples a handful of points.", "anchors": ["src/solarspatialtools/signalproc.py:plant1d_to_camfilter", "src/solarspatialtools/signalproc.py:get_1d_plant"]}
{"id": "C109", "title": "The default Marcos filter can be applied to a series", "statement": "In exact arithmetic: apply_filter(series, get_marcosfilter(s)) returns a filtered series of the same mean and no more energy. (Violated: the default filter has no negative frequencies, so the call raises ValueError for every series; holds when the frequency vector covers the transform's frequencies.)", "quantifier": "every series, sampling and plant size", "why_tests_cant": "The input domain is infinite (all reals / all lengths); a unit test samples a handful of points.", "anchors": ["src/solarspatialtools/signalproc.py:get_marcosfilter", "src/solarspatialtools/signalproc.py:apply_filter"]}
{"id": "C110", "title": "Geometric invariances of get_camfilter", "statement": "In exact arithmetic: get_camfilter does not change when sites and reference move together, when cloud_dir is lengthened, when sites move perpendicularly to the cloud direction, or (square, gaussian) when sites are reordered; a zero direction gives NaN everywhere; one site at the reference on an even grid gives gain 1 at all frequencies.", "quantifier": "every layout, direction, grid", "why_tests_cant": "The input domain is infinite (all reals / all lengths); a unit test samples a handful of points.", "anchors": ["src/solarspatialtools/signalproc.py:get_camfilter"]}
{"id": "C111", "title": "Passive filters do not amplify", "statement": "In exact arithmetic: if no filter value exceeds magnitude 1, the sum of squares of the filtered series is at most that of the input.", "quantifier": "every series and filter", "why_tests_cant": "The input domain is infinite (all reals / all lengths); a unit test samples a handful of points.", "anchors": ["src/solarspatialtools/signalproc.py:apply_filter"]}
{"id": "C112", "title": "Filter application is circularly time invariant", "statement": "In exact arithmetic: shifting the input circularly shifts the output by the same amount, and a filter equal to exp(-2 pi i f m dt) at the data's frequencies shifts the series circularly by m samples.", "quantifier": "every series, shift and filter", "why_tests_cant": "The input domain is infinite (all reals / all lengths); a unit test samples a handful of points.", "anchors": ["src/solarspatialtools/signalproc.py:apply_filter"]}
{"id": "C113", "title": "Error metrics with missing samples and different labels", "statement": "In exact arithmetic: two Series are compared on exactly the labels that carry a value on both sides, and give NaN, not an error, if there is none; two arrays give NaN as soon as one entry is NaN.", "quantifier": "every pair of series with any NaN pattern and any labels", "why_tests_cant": "The input domain is infinite (all reals / all lengths); a unit test samples a handful of points.", "anchors": ["src/solarspatialtools/stats.py:bias_error", "src/solarspatialtools/stats.py:mse", "src/solarspatialtools/stats.py:mae", "src/solarspatialtools/stats.py:mbe", "src/solarspatialtools/stats.py:rmse"]}
{"id": "C114", "title": "Variability index accepts one-column frames", "statement": "as documented, ghi and clearsky may be single-column DataFrames and the result is the index of the two columns. (Violated unless the two columns have the same name: the quotient is aligned on column names and is NaN.)", "quantifier": "every pair of one-column frames", "why_tests_cant": "All names and values.", "anchors": ["src/solarspatialtools/stats.py:variability_index"]}
{"id": "C115", "title": "Quantile summary is NaN only at the start", "statement": "as documented, calc_quantile is NaN only until the window is met for the first time (and where the window has no value at that time of day). (Violated: a day without any record makes the output NaN n_days later.)", "quantifier": "every series with gaps", "why_tests_cant": "All gap patterns.", "anchors": ["src/solarspatialtools/stats.py:calc_quantile"]}
{"id": "C116", "title": "Lower variability score shifts weight to larger scales", "statement": "In exact arithmetic: a lower variability score puts more weight on the larger of two scales, for every pair of scores in [0, 180]. (Violated at 0: a perfectly steady series puts all weight on the smallest scale, 1.)", "quantifier": "every pair of scores, every pair of scales", "why_tests_cant": "The input domain is infinite (all reals / all lengths); a unit test samples a handful of points.", "anchors": ["src/solarspatialtools/synthirrad/cloudfield.py:_calc_vs_weights"]}
{"id": "C117", "title": "Scaled clear-sky index stays between 0 and ktmax", "statement": "In exact arithmetic: no cell of the scaled field is negative or above ktmax. (Violated: _scale_field_lave multiplies the cloud cells by an unbounded factor, and they exceed ktmax.)", "quantifier": "every field, mask, mean, max", "why_tests_cant": "The input domain is infinite (all reals / all lengths); a unit test samples a handful of points.", "anchors": ["src/solarspatialtools/synthirrad/cloudfield.py:_scale_field_lave"]}
{"id": "C118", "title": "Positional series has one sample per second of the duration", "statement": "In exact arithmetic: get_positional_ts returns int(duration)+1 samples or raises. (Violated: a path that leaves the field is silently truncated, and negative positions wrap to the far end or give an empty series.)", "quantifier": "every field, position, speed and duration", "why_tests_cant": "All positions and durations.", "anchors": ["src/solarspatialtools/synthirrad/cloudfield.py:get_positional_ts"]}
{"id": "C119", "title": "edgesmoothing controls the width of the edges", "statement": "as documented, edgesmoothing sets the size of the edge filter of cloudfield_timeseries. (Violated: with the default scaling 'original' it has no effect on the result.)", "quantifier": "every input and every pair of filter sizes", "why_tests_cant": "All inputs.", "anchors": ["src/solarspatialtools/synthirrad/cloudfield.py:cloudfield_timeseries"]}
{"id": "C120", "title": "Generated cloud field end to end", "statement": "In exact arithmetic: with either scaling the generated field holds a set of cells equal to exactly 1 whose share is within 0.1 % of frac_clear; with 'original' and ktmax >= 1, a field without NaN that has a cell below 1 has mean at least ktmean, and if it is larger all cells are in [0, ktmax]; unknown scalings, lists of different length and fractions outside [0, 1] are errors.", "quantifier": "every random draw, weights, scales, size and target statistics", "why_tests_cant": "The input domain is infinite (all reals / all lengths); a unit test samples a handful of points.", "anchors": ["src/solarspatialtools/synthirrad/cloudfield.py:cloudfield_timeseries"]}
{"id": "C121", "title": "Series statistics for the generator are consistent", "statement": "In exact arithmetic: get_timeseries_stats returns a clear fraction in [0, 1] that counts exactly the samples above the threshold over all samples (NaN counting as cloudy) and falls with the threshold; mean, first percentile (linear interpolation) and maximum are those of the values present, and the first two do not exceed the maximum; the score is 10000 times the variability score of the series.", "quantifier": "every series with at least one value", "why_tests_cant": "The input domain is infinite (all reals / all lengths); a unit test samples a handful of points.", "anchors": ["src/solarspatialtools/synthirrad/cloudfield.py:get_timeseries_stats"]}
{"id": "C122", "title": "The CDF at a point does not depend on the other points asked for", "statement": "In exact arithmetic: the distribution function reported for a clear-sky index is the probability of not exceeding it, whatever other points are in the array. (Violated: it is a normalised running sum over the points given, and is 1 for every scalar input; the density does not depend on the other points.)", "quantifier": "every mixture, every point and every grid containing it", "why_tests_cant": "All grids.", "anchors": ["src/solarspatialtools/synthirrad/copula.py:_gmdistribution"]}
{"id": "C123", "title": "Inverse sampling inverts the CDF", "statement": "In exact arithmetic: sampling at a CDF value returns the first grid point with that CDF value. (Violated at the value 1, where the padding value 2 is returned whatever the grid.)", "quantifier": "every grid and nondecreasing CDF array", "why_tests_cant": "All arrays, including flat stretches.", "anchors": ["src/solarspatialtools/synthirrad/copula.py:_inverse_sample"]}
{"id": "C124", "title": "The clear component is brighter than the cloudy one", "statement": "In exact arithmetic: the mean of the clear component is at least the requested mean and that of the cloudy component at most the requested mean. (Violated for a mean of 0 with the default parameters; holds for every mean in [0.01, 1] with them, and in general the two halves are equivalent.)", "quantifier": "every mean clear-sky index, the default parameters (and the equivalence for every dictionary)", "why_tests_cant": "The input domain is infinite (all reals / all lengths); a unit test samples a handful of points.", "anchors": ["src/solarspatialtools/synthirrad/copula.py:_process_params"]}
{"id": "C125", "title": "The decay parameter of an array is the array of decay parameters", "statement": "_exponential_decay_parameter maps an array elementwise and keeps its shape. (Violated for one-element arrays below the bound, which become a plain number.)", "quantifier": "every array of means", "why_tests_cant": "All lengths.", "anchors": ["src/solarspatialtools/synthirrad/copula.py:_exponential_decay_parameter"]}
{"id": "C126", "title": "Hours of a multi-hour field are separate realisations, reproducible by seed", "statement": "with an integer seed the result is reproducible whatever was drawn before, and different hours are different realisations. (The second half is violated: every hour restarts the generator from the same seed, so hours with the same inputs are exact copies.)", "quantifier": "every generator whose integer-seeded output is a function of the seed, every number of hours", "why_tests_cant": "Histories of calls.", "anchors": ["src/solarspatialtools/synthirrad/copula.py:downscale_multihour", "src/solarspatialtools/synthirrad/copula.py:_copularnd"]}
{"id": "C127", "title": "Every value of an unscaled copula field follows the mixture distribution", "statement": "for draws that are a fixed factor of the covariance times independent standard normal numbers, at every time and site the probability that the unscaled value of downscale is at most a grid point is the entry of the distribution function of _solar_gmm at that grid point (with the non-negativity option for grid points >= 0, and no probability below zero), whatever the layout, times, cloud motion and correlation.", "quantifier": "every probability space and generator of that form, layout, time list, cloud velocity, mean, proper parameters, site, time and grid point", "why_tests_cant": "A statement about a probability law, for all layouts.", "anchors": ["src/solarspatialtools/synthirrad/copula.py:downscale", "src/solarspatialtools/synthirrad/copula.py:_space_time_copula", "src/solarspatialtools/synthirrad/copula.py:_copularnd", "src/solarspatialtools/synthirrad/copula.py:_inverse_sample"]}
{"id": "C128", "title": "Every listed URL is stored", "statement": "after a complete run of wget_fromurl into an empty directory every listed URL has its content stored under its last component. (Violated when two URLs share their last component: the second is silently skipped.)", "quantifier": "every list of rows, every server", "why_tests_cant": "All lists, including name clashes.", "anchors": ["src/solarspatialtools/dataio/iotools.py:wget_fromurl"]}
{"id": "C129", "title": "getfiles returns files", "statement": "getfiles returns only files. (Violated: a directory whose name carries the extension is returned too.)", "quantifier": "every directory listing", "why_tests_cant": "All listings.", "anchors": ["src/solarspatialtools/dataio/iotools.py:getfiles"]}
{"id": "C130", "title": "Gap interpolation works column by column for every length of series", "statement": "interp_nan processes every column on its own and keeps labels and lengths. (Violated for series of fewer than 2*limit samples, which are always rejected with ValueError.)", "quantifier": "every frame, every limit", "why_tests_cant": "All lengths.", "anchors": ["src/solarspatialtools/dataio/hope_campaign.py:interp_nan"]}
{"id": "C131", "title": "The NRCAN frame contains the samples of all sensors", "statement": "every sensor's resampled series appears in the saved frame. (Violated: the labels are those of the first file; samples of other sensors at other times are dropped; and the column of a sensor named tmp is overwritten by the next sensor. Otherwise data has one column per sensor, in the order of the files, with the sensor's own G1 values at the labels of the first file, and data_tilt likewise G2.)", "quantifier": "every set of sensor files", "why_tests_cant": "All combinations of time spans.", "anchors": ["src/solarspatialtools/dataio/nrcan_data.py:process_files"]}
{"id": "C132", "title": "Overwriting is all or nothing", "statement": "dataset_to_h5 with overwrite replaces an existing file only by a complete conversion. (Violated: the old file is removed first; if there is nothing to convert or the first file is unreadable, nothing is left.)", "quantifier": "every directory, every failure", "why_tests_cant": "Failure points.", "anchors": ["src/solarspatialtools/dataio/hope_campaign.py:dataset_to_h5"]}
{"id": "C133", "title": "NRCAN conversion fails cleanly", "statement": "a failing conversion leaves the target untouched, and the column of date_site.csv is site. (Violated with no sensor file: NameError after latlon has been written. Unreadable or misnamed sensor files stop the run before anything is written.)", "quantifier": "every directory listing and every reader", "why_tests_cant": "Failure points.", "anchors": ["src/solarspatialtools/dataio/nrcan_data.py:process_files"]}
{"id": "C134", "title": "Scatter histograms count every point", "statement": "In exact arithmetic: the two histograms of scatter_hist share symmetric edges at multiples of 0.25 that exceed every coordinate by at most one bin, and each counts every point exactly once, in the bar between whose edges it lies; empty or unequal inputs raise ValueError.", "quantifier": "every non-empty pair of equally long coordinate lists", "why_tests_cant": "The input domain is infinite (all reals / all lengths); a unit test samples a handful of points.", "anchors": ["src/solarspatialtools/visualization/vis_tools.py:scatter_hist"]}
{"id": "C135", "title": "compute_cmv finds a frozen cloud pattern from the recorded series (gagne)", "statement": "In exact arithmetic: a mean-free pattern that a constant wind V carries over the sites, recorded completely at every site on a site-dependent background, gives with method gagne and backend xcorr exactly the speed |V| and the direction of V, if two pairs with a reference lie in non-parallel directions and see the pattern at different samples and no site is overcast.", "quantifier": "every pattern, record length, sampling interval, wind, layout, background and options meeting these conditions; an exact least-squares solver", "why_tests_cant": "All patterns and layouts; composes correlation, quality control and fit.", "anchors": ["src/solarspatialtools/cmv.py:compute_cmv", "src/solarspatialtools/signalproc.py:compute_delays"]}
{"id": "C136", "title": "compute_cmv finds a frozen cloud pattern from the recorded series (jamaly)", "statement": "In exact arithmetic: as C135 with method jamaly: exactly the speed |V|, the direction of V and flag GOOD, if moreover the two pairs are strictly within the velocity limits, the pattern stands out of the background by var_s_lim and mincorr, var_s_lim <= 1.", "quantifier": "every pattern, record length, sampling interval, wind, layout, background and options meeting these conditions; an optimiser that finds a local minimum", "why_tests_cant": "All patterns and layouts; composes correlation, quality control and minimisation.", "anchors": ["src/solarspatialtools/cmv.py:compute_cmv", "src/solarspatialtools/signalproc.py:compute_delays"]}
{"id": "C137", "title": "Cloud vectors found from the data give the same prediction as the true winds", "statement": "In exact arithmetic: compute_predicted_position without cld_vecs, on two data sets in which frozen patterns pass with the winds V1 and V2 (visible to method jamaly), returns exactly what it returns for cld_vecs=[V1, V2] when the columns of pos_utm are E, N in this order (with the order N, E: what it returns for the winds with east and north exchanged); a failure of compute_cmv is the failure of the call; a null cloud motion in either data set gives (NaN, NaN) in every mode.", "quantifier": "every layout, pattern, pair of winds, mode, selection and limit; an optimiser that finds a local minimum", "why_tests_cant": "Composition of two algorithms, all layouts and winds.", "anchors": ["src/solarspatialtools/field.py:compute_predicted_position", "src/solarspatialtools/cmv.py:compute_cmv"]}
{"id": "C138", "title": "Sensor gains do not affect the predicted position", "statement": "In exact arithmetic: for given cloud vectors, multiplying the columns of the data sets by positive factors (one per column and data set, reference included) changes neither the predicted position nor the returned tables nor the outcome in case of an error, for both delay methods and every mode.", "quantifier": "every data set, gain, layout, mode and limit", "why_tests_cant": "The input domain is infinite (all reals / all lengths); a unit test samples a handful of points.", "anchors": ["src/solarspatialtools/field.py:compute_predicted_position", "src/solarspatialtools/signalproc.py:compute_delays_tf"]}
{"id": "C139", "title": "The predicted position moves with the coordinate system", "statement": "In exact arithmetic: if positions are turned, stretched by k > 0 and shifted, and the cloud vectors turned and stretched alike, a finite predicted position is turned, stretched and shifted in the same way and the same sites are selected (k = 1 in mode distance).", "quantifier": "every data set, layout, similarity, mode and limit", "why_tests_cant": "The input domain is infinite (all reals / all lengths); a unit test samples a handful of points.", "anchors": ["src/solarspatialtools/field.py:compute_predicted_position"]}
{"id": "C140", "title": "The order of the two data sets does not matter", "statement": "In exact arithmetic: exchanging the two data sets together with their cloud vectors leaves a finite predicted position unchanged and exchanges the returned tables.", "quantifier": "every pair of data sets, layout, mode and limit", "why_tests_cant": "The input domain is infinite (all reals / all lengths); a unit test samples a handful of points.", "anchors": ["src/solarspatialtools/field.py:compute_predicted_position"]}
{"id": "C141", "title": "Sensors are matched by name", "statement": "in the tables of compute_predicted_position the row of a site holds delay and coherence of the column of the same name. (Violated: arrays are combined by position; with the columns of a data frame in another order than the rows of pos_utm, values are assigned to the wrong sites without notice. Proved when the orders agree.)", "quantifier": "every data set and layout", "why_tests_cant": "All column orders.", "anchors": ["src/solarspatialtools/field.py:compute_predicted_position"]}
{"id": "C142", "title": "The quality-controlled file is complete or untouched", "statement": "In exact arithmetic: whatever fails or is refused while hope_campaign runs, the -qc file is afterwards either what it was or exactly the tables data (after the chosen method), flag and latlon of the source file on disk; if the program ends with an exception it is what it was; if it did not exist and the program ends normally it has been written; without -h5 an existing one is replaced exactly if the user answers y or Y, and any other answer is no error.", "quantifier": "every directory, server, listing, file content, earlier output, argument and sequence of answers", "why_tests_cant": "Failure points and interactions.", "anchors": ["src/solarspatialtools/dataio/hope_campaign.py:_main"]}
{"id": "C143", "title": "No HDF file is changed without consent", "statement": "hope_campaign changes no HDF file other than the source file (only with -h5) and the -qc file of the chosen method; if the user never answers y or Y, no existing HDF file is changed or removed; unknown dataset names and failed downloads leave all of them alone.", "quantifier": "every directory, server, argument and sequence of answers", "why_tests_cant": "Failure points and interactions.", "anchors": ["src/solarspatialtools/dataio/hope_campaign.py:_main"]}
{"id": "C144", "title": "A run without error converts everything", "statement": "In exact arithmetic: if hope_campaign -h5 ends without exception and there was no source file, the source file holds every record and flag of every .nc file, each under its own station, and the -qc file is derived from all of them (the first file having at least one station and one record). (Violated: if a later file has other stations the ValueError of the append is taken for \"File exists\"; with the answer N the program goes on with the records of the first files only. Proved for files with the same stations, in whatever order each file lists them.)", "quantifier": "every directory, server, file content and sequence of answers", "why_tests_cant": "All file contents and orders.", "anchors": ["src/solarspatialtools/dataio/hope_campaign.py:_main", "src/solarspatialtools/dataio/hope_campaign.py:dataset_to_h5", "src/solarspatialtools/dataio/hope_campaign.py:parse_file"]}
{"id": "C145", "title": "The case of names on the command line does not matter", "statement": "hope_campaign treats names that differ only in case alike. (Violated: dataset names are upper- and lower-cased, but the name of the method is compared as typed although its file name is lower-cased, so INTERP always ends in an exception. Proved for the dataset; other method names always end in an exception and write nothing.)", "quantifier": "every ASCII name, directory, server and sequence of answers", "why_tests_cant": "The input domain is infinite (all reals / all lengths); a unit test samples a handful of points.", "anchors": ["src/solarspatialtools/dataio/hope_campaign.py:_main", "src/solarspatialtools/dataio/hope_campaign.py:_parse_args"]}
{"id": "C146", "title": "Running the program twice gives the same files", "statement": "In exact arithmetic: after a run of hope_campaign without exception in which the user agreed whenever asked, a second run, agreeing again, ends without exception and leaves every downloaded file and every HDF file as it is.", "quantifier": "every directory, server, listing, file content, earlier output and argument", "why_tests_cant": "All states and interactions.", "anchors": ["src/solarspatialtools/dataio/hope_campaign.py:_main", "src/solarspatialtools/dataio/iotools.py:wget_fromurl"]}
{"id": "C147", "title": "Any iterable of reference ids gives the pairs of a list of the same ids", "statement": "compute_cmv with an iterable of ids as reference_id gives what it gives with a list of the ids it yields. (Violated: a generator is used up while pairs are selected, so with one id the call fails with IndexError or returns the null result, and with n ids at most n pairs are evaluated; of a pandas Series the labels are compared instead of the values. Proved for lists, tuples, arrays and sets.)", "quantifier": "every layout, data set, method, backend and options", "why_tests_cant": "The input domain is infinite (all reals / all lengths); a unit test samples a handful of points.", "anchors": ["src/solarspatialtools/cmv.py:compute_cmv", "src/solarspatialtools/cmv.py:_get_pairs"]}
{"id": "C148", "title": "apply_delay works on the transfer functions of averaged_tf", "statement": "In exact arithmetic: every value of the frame is multiplied by exp(-2 pi i f delay). (Violated: with at least two columns and two frequencies the call raises ValueError. Proved for one column.)", "quantifier": "every frame of transfer functions and every delay", "why_tests_cant": "The input domain is infinite (all reals / all lengths); a unit test samples a handful of points.", "anchors": ["src/solarspatialtools/signalproc.py:apply_delay"]}
{"id": "C149", "title": "get_1d_plant does not depend on the number type", "statement": "In exact arithmetic: the plant profile depends on the numbers given as centers and reference, not on whether they are stored as integers or floats. (Violated: integer centers with a float reference raise TypeError. Proved otherwise.)", "quantifier": "every list of centers, reference, width, shape and grid", "why_tests_cant": "The input domain is infinite (all reals / all lengths); a unit test samples a handful of points.", "anchors": ["src/solarspatialtools/signalproc.py:get_1d_plant"]}
{"id": "C150", "title": "get_camfilter uses one plane for sites and reference", "statement": "In exact arithmetic: the filter is that of the plant as seen in one system of coordinates, and a row or a frame can be given as reference. (Violated: latitudes and longitudes are converted in the UTM zone of each row, so a site east of the reference in the next zone counts as lying west of it; a frame as reference, the documented type, always raises ValueError. Proved for sites in one zone and hemisphere, and for a row as reference.)", "quantifier": "every layout, cloud speed and direction, plant shape; projections whose zones are alike and whose easting increases with longitude", "why_tests_cant": "All layouts.", "anchors": ["src/solarspatialtools/signalproc.py:get_camfilter", "src/solarspatialtools/spatial.py:latlon2utm", "src/solarspatialtools/spatial.py:compute_vectors"]}
{"id": "C151", "title": "apply_filter accepts frames", "statement": "In exact arithmetic: apply_filter filters a DataFrame column by column, and accepts a DataFrame of transfer functions as filter. (Violated: neither ever gives a result. Proved: for a Series and a Series as filter the description used in the other properties holds.)", "quantifier": "every frame and filter", "why_tests_cant": "The input domain is infinite (all reals / all lengths); a unit test samples a handful of points.", "anchors": ["src/solarspatialtools/signalproc.py:apply_filter"]}
{"id": "C152", "title": "compute_cmv leaves the settings of numpy alone", "statement": "the reactions to floating-point errors set with np.seterr are the same after a call of compute_cmv as before. (Violated: every call with valid names leaves divide and invalid at 'ignore', even if it fails. Proved: over and under stay; a call rejected for its names changes nothing.)", "quantifier": "every call and every earlier setting", "why_tests_cant": "Process-wide state, all histories.", "anchors": ["src/solarspatialtools/cmv.py:compute_cmv"]}
{"id": "C153", "title": "The reported variability score can be turned into weights", "statement": "In exact arithmetic: the variability score returned by get_timeseries_stats gives, with _calc_vs_weights, positive weights that add up to 1. (Violated: the score is reported times 10000, the weights are NaN for all series with a score above 0.018. Proved below.)", "quantifier": "every series of clear-sky indices and every list of positive scales", "why_tests_cant": "The input domain is infinite (all reals / all lengths); a unit test samples a handful of points.", "anchors": ["src/solarspatialtools/synthirrad/cloudfield.py:get_timeseries_stats", "src/solarspatialtools/synthirrad/cloudfield.py:_calc_vs_weights"]}
{"id": "C154", "title": "The origin of the coordinates does not matter for the cloud motion", "statement": "In exact arithmetic: adding the same vector to all positions (UTM coordinates or coordinates of the plant) changes nothing in the outcome of compute_cmv: same result, or the same exception.", "quantifier": "every data set, layout, shift, method, backend and options", "why_tests_cant": "All layouts and shifts.", "anchors": ["src/solarspatialtools/cmv.py:compute_cmv", "src/solarspatialtools/spatial.py:compute_vectors"]}
{"id": "C155", "title": "Turning and rescaling the coordinates turns and rescales the cloud motion", "statement": "In exact arithmetic: if all positions are turned by an angle and multiplied by a factor (for jamaly the velocity limits too), compute_cmv returns the motion turned by the angle and multiplied by the factor, the same overall flag and the same flag for every pair; provided the GOOD pairs determine the motion and the optimisers are exact. A negative factor reverses the motion.", "quantifier": "every data set, layout, angle, factor other than 0, method, backend with finite delays and options", "why_tests_cant": "All layouts, angles and factors.", "anchors": ["src/solarspatialtools/cmv.py:compute_cmv", "src/solarspatialtools/cmv.py:_pairwise_qc"]}
{"id": "C156", "title": "Samples further apart in time mean a slower motion", "statement": "In exact arithmetic: with the backend xcorr, the same samples taken c times as far apart (for jamaly the velocity limits divided by c) give the speed divided by c, the same direction and the same flags; provided the GOOD pairs determine the motion and the optimisers are exact.", "quantifier": "every data set, layout, factor c > 0, method and options", "why_tests_cant": "All data sets and factors.", "anchors": ["src/solarspatialtools/cmv.py:compute_cmv", "src/solarspatialtools/signalproc.py:compute_delays"]}
{"id": "C157", "title": "A record read backwards shows the opposite motion", "statement": "In exact arithmetic: with the backend xcorr, if the series are complete and of equal length and the correlation of any two of them that vary has a single largest value, reversing all series in time keeps speed and flags and reverses the direction; provided the GOOD pairs determine the motion and the optimisers are exact.", "quantifier": "every such data set, layout, method and options", "why_tests_cant": "All data sets.", "anchors": ["src/solarspatialtools/cmv.py:compute_cmv", "src/solarspatialtools/signalproc.py:compute_delays"]}
{"id": "C158", "title": "The order of rows and columns does not matter for the cloud motion", "statement": "In exact arithmetic: with the backend xcorr, if the sites are distinct, the series are complete and of equal length and the correlation of any two of them that vary has a single largest value, any order of the rows of the position table, of the columns of the time series and of the reference ids gives the same speed, direction, overall flag and flags of the pairs (a pair may appear as (b, a) instead of (a, b)); provided the GOOD pairs determine the motion and the optimisers are exact.", "quantifier": "every such data set, layout, permutation, method and options", "why_tests_cant": "All permutations.", "anchors": ["src/solarspatialtools/cmv.py:compute_cmv", "src/solarspatialtools/cmv.py:_get_pairs", "src/solarspatialtools/signalproc.py:compute_delays"]}
{"id": "C159", "title": "The names of the sites and further columns do not matter for the cloud motion", "statement": "In exact arithmetic: with other names for the sites (different ones for different sites) compute_cmv fails in the same way or returns the same result with the new names in the pairs; columns of the time series for sites that have no position change nothing.", "quantifier": "every data set, layout, injective renaming, method, backend and options", "why_tests_cant": "All renamings.", "anchors": ["src/solarspatialtools/cmv.py:compute_cmv", "src/solarspatialtools/cmv.py:_get_pairs"]}
{"id": "C160", "title": "Speed, direction and flag reported by jamaly", "statement": "In exact arithmetic: with method jamaly and at least two GOOD pairs, the speed returned is the median of the apparent speeds (distance along the direction divided by delay) of the GOOD pairs in the direction returned; no small change of the direction makes the apparent speeds scatter less; the flag is TREND if the 40 and 60 percentiles of the apparent speeds are more than 0.4 times the speed apart, and GOOD otherwise; pair_dists are the components of all pair vectors in this direction.", "quantifier": "every data set, layout, reference choice, backend and options with two GOOD pairs; every exact local minimiser", "why_tests_cant": "All data sets; tests check recorded values of single days.", "anchors": ["src/solarspatialtools/cmv.py:compute_cmv"]}
{"id": "C161", "title": "method_data of jamaly describes the GOOD pairs", "statement": "In exact arithmetic: with method jamaly and at least two GOOD pairs, method_data['ngood'] is the number of GOOD entries of pair_flag, there is one velocity per GOOD pair, r_corr lies between 0 and 1, stderr_corr is not negative, and the flag is TREND exactly if error_index is above 0.4 in absolute value.", "quantifier": "every data set, layout, reference choice, backend and options with two GOOD pairs", "why_tests_cant": "All data sets (the bound on r_corr is the Cauchy-Schwarz inequality).", "anchors": ["src/solarspatialtools/cmv.py:compute_cmv"]}
{"id": "C162", "title": "Noise-free motion has r_corr 1 and stderr_corr 0", "statement": "In exact arithmetic: if the delays of all GOOD pairs are exactly those of one motion, then r_corr is 1 and stderr_corr is 0. (Violated if all delays are equal: the regression raises ValueError, which is caught, and r_corr is reported as 0.)", "quantifier": "every data set whose GOOD pairs have the delays of one motion and span the plane", "why_tests_cant": "All motions and layouts.", "anchors": ["src/solarspatialtools/cmv.py:compute_cmv"]}
{"id": "C163", "title": "The data object repeats the returned speed and direction", "statement": "In exact arithmetic: the third result of compute_cmv holds the returned speed and direction, and its lists of pairs, lags, correlations, distances and flags have one entry per pair in the same order. (Violated with fewer than two GOOD pairs: speed and direction 0 are returned, but wind_speed, wind_angle, pair_lag, pair_dists, corr_lag and method_data of the object are None, so that demos/automate_cmv_demo.py fails when it reads method_data['ngood'].)", "quantifier": "every data set, layout, reference choice, method, backend and options", "why_tests_cant": "All data sets.", "anchors": ["src/solarspatialtools/cmv.py:compute_cmv", "src/solarspatialtools/cmv.py:WindspeedData"]}
{"id": "C164", "title": "gagne returns the motion that fits the delays best", "statement": "In exact arithmetic: with method gagne and at least two GOOD pairs, the sum of squared differences between the delays of the GOOD pairs and those of a motion is smallest for the speed and direction returned, over all speeds and directions; if no motion fits better than an infinitely fast one, both are NaN.", "quantifier": "every data set, layout, reference choice, backend and options with two GOOD pairs; every exact least squares solver", "why_tests_cant": "All data sets, all competing motions.", "anchors": ["src/solarspatialtools/cmv.py:compute_cmv"]}
{"id": "C165", "title": "The reassignment procedure finds sensors that are mixed up", "statement": "In exact arithmetic: if some sensors of a plant are mixed up among themselves in the position table and the delays are exactly those of straight fronts passing the true places with two motions that are not parallel, the procedure of demos/field_reassignment_demo.py (predict every reference, assign_positions, remap_positions, repeat and cascade_remap) returns the true assignment after the first and after every further round, and remap_positions with it puts every sensor at its true place. With mode 'all' this holds because the displacements of mixed-up sensors add up to zero; with the other modes if the sites used are themselves at their places. (Violated for a sensor displaced perpendicularly to one of the motions: its prediction is NaN, so it is left where it is.)", "quantifier": "every plant, mix-up, pair of motions, mode and number of rounds", "why_tests_cant": "All plants and permutations; the demonstration runs on one plant.", "anchors": ["src/solarspatialtools/field.py:compute_predicted_position", "src/solarspatialtools/field.py:assign_positions", "src/solarspatialtools/field.py:remap_positions", "src/solarspatialtools/field.py:cascade_remap"]}
{"id": "C166", "title": "Misplaced neighbours shift a prediction by exactly their mean displacement", "statement": "In exact arithmetic: if the delays are exactly those of the true places, compute_predicted_position misses the true place of the reference by minus the mean displacement of the sites it uses (the rows of the two tables it returns), taken along each of the two motions; if the same sites are used for both (modes 'global_coherence', 'distance', 'all') the prediction is the true place minus this mean. It is NaN exactly if no site is used or the apparent displacement along one motion is zero.", "quantifier": "every plant, set of displacements, pair of motions that are not parallel, mode and ndownsel", "why_tests_cant": "All displacements of all sites at once.", "anchors": ["src/solarspatialtools/field.py:compute_predicted_position"]}
{"id": "C167", "title": "A correct layout is left alone by the reassignment procedure", "statement": "In exact arithmetic: if the delays are exactly those of the places in the position table, the procedure of demos/field_reassignment_demo.py pairs every reference with itself, in every mode and however often it is repeated.", "quantifier": "every plant, choice of references, pair of motions that are not parallel, mode, ndownsel and number of rounds", "why_tests_cant": "All plants and numbers of rounds.", "anchors": ["src/solarspatialtools/field.py:compute_predicted_position", "src/solarspatialtools/field.py:assign_positions", "src/solarspatialtools/field.py:cascade_remap"]}
{"id": "C168", "title": "Predictions nearest to the true place are enough for the assignment", "statement": "In exact arithmetic: if every prediction is nearer to the true place of its entity than to any other place in the table, and NaN only for entities that are where the table says, assign_positions returns exactly the true assignment; the predictions need not be exact.", "quantifier": "every table, set of predictions with the labels in the order of the table, and exact solver", "why_tests_cant": "All predictions; the minimum is over all permutations.", "anchors": ["src/solarspatialtools/field.py:assign_positions"]}
{"id": "C169", "title": "A confirmed remap is returned unchanged by the next round", "statement": "In exact arithmetic: the procedure of demos/field_reassignment_demo.py compares the lists of two rounds to see whether it has converged; if the round on the remapped table changes nothing, the two lists are equal. (Violated after the first round: assign_positions with NaN predictions lists the pairs in the order of the table and cascade_remap in ascending order, so the lists differ although every sensor stays in place.)", "quantifier": "every plant, data, mode and number of rounds", "why_tests_cant": "All data and numbers of rounds.", "anchors": ["src/solarspatialtools/field.py:assign_positions", "src/solarspatialtools/field.py:cascade_remap"]}
{"id": "C170", "title": "The complete reassignment procedure always ends", "statement": "In exact arithmetic: the loop of demos/field_demo_full_process.py ends after at most ten rounds whatever is predicted; when it ends, the last mapping found is one of the earlier ones or ten rounds have been done, and the mappings before the last are all different.", "quantifier": "every plant, set of predictions, assignment of combiners to inverters and solver", "why_tests_cant": "Termination over all prediction histories.", "anchors": ["src/solarspatialtools/field.py:compute_predicted_position", "src/solarspatialtools/field.py:assign_positions", "src/solarspatialtools/field.py:remap_positions", "src/solarspatialtools/field.py:cascade_remap"]}
{"id": "C171", "title": "The complete procedure assigns every combiner a place of its own in its inverter", "statement": "In exact arithmetic: demos/field_demo_full_process.py reassigns \"by inverter\": whatever is predicted (NaN included), the reported mapping, and every mapping and layout recorded on the way, puts the combiners one to one on the places of their own inverter. (Violated if the name of an inverter is part of another one's, as \"1\" of \"11\": combiners are selected with the operator in on strings, so some are assigned twice; the procedure can end, converged, with two combiners at one place.)", "quantifier": "every plant, set of predictions and exact solver", "why_tests_cant": "All predictions in all rounds; the sample plant has inverter names of one length.", "anchors": ["src/solarspatialtools/field.py:compute_predicted_position", "src/solarspatialtools/field.py:assign_positions", "src/solarspatialtools/field.py:remap_positions", "src/solarspatialtools/field.py:cascade_remap"]}
{"id": "C172", "title": "The reported mapping is the last one found, and changed lists the unsettled combiners", "statement": "In exact arithmetic: at the end of demos/field_demo_full_process.py `changed` contains exactly the combiners whose place differs between the reported mapping and the last entry of `remaps`; if it is empty the reported mapping is that last entry. (Violated otherwise: \"the final entry in remaps contains the mapping\", but the mapping of the round before is printed; for two combiners with identical recordings the two differ for both.)", "quantifier": "every plant, set of predictions and exact solver", "why_tests_cant": "All prediction histories.", "anchors": ["src/solarspatialtools/field.py:compute_predicted_position", "src/solarspatialtools/field.py:assign_positions", "src/solarspatialtools/field.py:remap_positions", "src/solarspatialtools/field.py:cascade_remap"]}
{"id": "C173", "title": "Predictions nearest to the true places are enough for the complete procedure", "statement": "In exact arithmetic: if the predictions made with the plan and with the true layout are nearer to the true place of the combiner than to any other place of its inverter, and NaN only for combiners that the layout in use has at their true places, the procedure of demos/field_demo_full_process.py reports exactly the true mapping and layout, with changed empty, after at most two rounds.", "quantifier": "every plant in which no inverter's name is part of another's, mix-up within the inverters, set of such predictions and exact solver", "why_tests_cant": "All mix-ups and predictions.", "anchors": ["src/solarspatialtools/field.py:compute_predicted_position", "src/solarspatialtools/field.py:assign_positions", "src/solarspatialtools/field.py:remap_positions", "src/solarspatialtools/field.py:cascade_remap"]}
{"id": "C174", "title": "A correct plan is confirmed by the complete procedure", "statement": "In exact arithmetic: if the delays of all combiners in all windows are exactly those of the plan, the procedure of demos/field_demo_full_process.py reports that every combiner is where the plan says and that none changed, for any windows (kept pairs of cloud motions or none), mode and ndownsel.", "quantifier": "every plant in which no inverter's name is part of another's, set of windows, mode and ndownsel", "why_tests_cant": "All plants and sets of cloud motions.", "anchors": ["src/solarspatialtools/field.py:compute_predicted_position", "src/solarspatialtools/field.py:assign_positions", "src/solarspatialtools/field.py:remap_positions", "src/solarspatialtools/field.py:cascade_remap"]}
{"id": "C175", "title": "The complete procedure finds combiners that are mixed up within their inverters", "statement": "In exact arithmetic: if combiners are mixed up within their inverters and all delays are exactly those of the true places, the procedure of demos/field_demo_full_process.py reports the true mapping, with changed empty, after at most two rounds. (Violated if the displacements are at right angles to one motion of every kept pair: all predictions are NaN and the wrong plan is reported as converged. Proved for mode 'all' if every misplaced combiner is displaced obliquely to both motions of some kept pair: the pairs that see nothing are NaN and left out of the mean.)", "quantifier": "every plant in which no inverter's name is part of another's, mix-up and set of windows", "why_tests_cant": "All mix-ups and sets of cloud motions.", "anchors": ["src/solarspatialtools/field.py:compute_predicted_position", "src/solarspatialtools/field.py:assign_positions", "src/solarspatialtools/field.py:remap_positions", "src/solarspatialtools/field.py:cascade_remap"]}
{"id": "C176", "title": "The kept pairs of cloud motions are the ones that are not nearly parallel", "statement": "In exact arithmetic: demos/field_demo_full_process.py keeps, of every two different windows, one ordering once if the angle between their cloud motions is strictly between the limit (45 degrees) and 180 degrees minus the limit, and none otherwise (also if a motion is zero); kept motions are never parallel, so the linear system of compute_predicted_position is regular. The list is pruned in a loop over a copy.", "quantifier": "every set of windows, cloud motions and limit between 0 and 90 degrees", "why_tests_cant": "All sets of vectors; trigonometric identity.", "anchors": ["src/solarspatialtools/spatial.py:unit", "src/solarspatialtools/field.py:compute_predicted_position"]}
{"id": "C177", "title": "Averaged power spectra are means over the segments of the record", "statement": "In exact arithmetic: averaged_psd(x, navgs, overlap) is at each frequency k/(L dt), k = 0..L/2, the mean of averaged_psd(segment, 1) over the segments of L = n // navgs samples that begin at samples 0, h, 2h, ... with h = L - int(L*overlap), as many as fit into the record; for a frame each column has the spectrum of that column alone.", "quantifier": "every record, number of averages, overlap >= 0, window, detrending and scaling", "why_tests_cant": "All records and all numbers of segments.", "anchors": ["src/solarspatialtools/signalproc.py:averaged_psd"]}
{"id": "C178", "title": "navgs is the number of averages without overlap", "statement": "In exact arithmetic: as documented, averaged_psd averages navgs segments if there is no overlap, and more with overlap. (Violated: the segments have n // navgs samples and as many are taken as fit, e.g. three of one sample for n = 3 and navgs = 2. Holds if navgs divides n; there are never fewer than navgs segments, and more overlap never means fewer.)", "quantifier": "every record, number of averages, overlap", "why_tests_cant": "All records and numbers of averages.", "anchors": ["src/solarspatialtools/signalproc.py:averaged_psd"]}
{"id": "C179", "title": "Averaged transfer functions are power-weighted means over the segments", "statement": "In exact arithmetic: averaged_tf(x, y, navgs, overlap) is at each frequency the mean of the one-segment transfer functions averaged_tf(segment of x, segment of y, 1), weighted with the input power of the segment at that frequency (averaged_psd); NaN exactly where no segment has input power. The segments are those of averaged_psd.", "quantifier": "every pair of records, number of averages, overlap >= 0, window, detrending", "why_tests_cant": "The input domain is infinite (all reals / all lengths); a unit test samples a handful of points.", "anchors": ["src/solarspatialtools/signalproc.py:averaged_tf", "src/solarspatialtools/signalproc.py:averaged_psd"]}
{"id": "C180", "title": "The reference filtered with the CAM filter is the mean of the plant", "statement": "In exact arithmetic: if a repeating cloud pattern moves over the plant with the given speed and direction, apply_filter(reference series, get_camfilter(sites, speed, direction, reference)) is the mean of the series of all sites. Record length, sampling and plant axis match: xmax is the way moved during the record, dx divides the way moved in one sampling interval, the delays of the sites are whole samples. (Violated if two sites are at the same distance along the motion: they count as one. Holds if all distances differ.)", "quantifier": "every plant, pattern, speed, direction and sampling that match", "why_tests_cant": "The input domain is infinite (all reals / all lengths); a unit test samples a handful of points.", "anchors": ["src/solarspatialtools/signalproc.py:get_camfilter", "src/solarspatialtools/signalproc.py:apply_filter", "src/solarspatialtools/signalproc.py:get_1d_plant", "src/solarspatialtools/signalproc.py:plant1d_to_camfilter"]}
{"id": "C181", "title": "The measured transfer function of a plant is its CAM filter", "statement": "In exact arithmetic: for a plant whose sites are at different distances along the motion of a repeating pattern, averaged_tf (one block, rectangular window, no detrending) from the reference to the mean of the plant has the value of get_camfilter at every frequency below half the sampling rate; it is NaN exactly where the reference has no power.", "quantifier": "every plant with sites at different distances, pattern, speed, direction and sampling that match as in C180", "why_tests_cant": "The input domain is infinite (all reals / all lengths); a unit test samples a handful of points.", "anchors": ["src/solarspatialtools/signalproc.py:get_camfilter", "src/solarspatialtools/signalproc.py:averaged_tf"]}
{"id": "C182", "title": "Every plant can be placed on the synthetic cloud field of the demonstration", "statement": "In exact arithmetic: demos/synthetic_clouds_demo.py turns the plant into the direction of motion, sizes the field after it and reads T + 1 samples for every sensor, in the order of the sensors. (Violated: sensors in a line along or across the motion, a single sensor included, cannot be read: the field has no cells in that direction. Proved: reading succeeds exactly if neither extent of the plant is a whole number of seconds of cloud motion.)", "quantifier": "every plant, speed > 0, direction, duration and field", "why_tests_cant": "All plants and directions.", "anchors": ["src/solarspatialtools/synthirrad/cloudfield.py:cloudfield_timeseries", "src/solarspatialtools/spatial.py:rotate_vector"]}
{"id": "C183", "title": "Downwind sensors of the cloud demonstration record the upwind series later", "statement": "In exact arithmetic: of two sensors of demos/synthetic_clouds_demo.py in a line along the motion the downwind one records the series of the other one k samples later, where k differs from the travel time of the clouds by less than one sample and equals it if it is a whole number.", "quantifier": "every plant, speed > 0, direction, field and pair of sensors in line", "why_tests_cant": "All plants, directions and fields.", "anchors": ["src/solarspatialtools/synthirrad/cloudfield.py:cloudfield_timeseries", "src/solarspatialtools/spatial.py:rotate_vector"]}
{"id": "C184", "title": "The cells read by two sensors are as far apart as the sensors", "statement": "In exact arithmetic: in demos/synthetic_clouds_demo.py all sensors advance one row of the field per sample in a fixed column; rows and columns of two sensors differ by their distances along and across the motion in seconds of cloud motion, up to less than one; sensors abreast read the same row, sensors in line the same column.", "quantifier": "every plant, speed > 0, direction and field", "why_tests_cant": "All plants, directions and fields.", "anchors": ["src/solarspatialtools/synthirrad/cloudfield.py:cloudfield_timeseries", "src/solarspatialtools/spatial.py:rotate_vector"]}
{"id": "C185", "title": "compute_cmv recovers the motion of series read from a synthetic field", "statement": "In exact arithmetic: compute_cmv (method gagne, backend xcorr) on the series get_positional_ts reads at the sites returns exactly the speed they were read with, and the direction pi (the clouds come from larger x), if a common pattern on own background levels passes every site within the record.", "quantifier": "every field of such columns, sites a whole number of cells along the field, two pairs of sites not in line", "why_tests_cant": "The input domain is infinite (all reals / all lengths); a unit test samples a handful of points.", "anchors": ["src/solarspatialtools/synthirrad/cloudfield.py:get_positional_ts", "src/solarspatialtools/cmv.py:compute_cmv"]}
{"id": "C186", "title": "The hours processed are the most variable ones", "statement": "In exact arithmetic: demos/automate_cmv_demo.py processes the 20 hours with the largest median variability score over the sites (all hours if there are fewer), in decreasing order, each once; hours without a score only after all others.", "quantifier": "every data set, every order of ties", "why_tests_cant": "All data sets.", "anchors": ["src/solarspatialtools/stats.py:variability_score"]}
{"id": "C187", "title": "Only cloud vectors of good quality are kept", "statement": "In exact arithmetic: demos/automate_cmv_demo.py drops exactly the hours with fewer than 200 GOOD pairs, a correlation below 0.85 or a flag other than GOOD. (Violated: the flag looked at is always that of the first row, so of a GOOD and a TREND hour both or none are kept, depending on their order. Proved: what is kept.)", "quantifier": "every table of results with distinct hours", "why_tests_cant": "All tables.", "anchors": ["src/solarspatialtools/cmv.py:compute_cmv", "src/solarspatialtools/cmv.py:Flag"]}
{"id": "C188", "title": "Every chosen hour gets a row with its cloud motion", "statement": "In exact arithmetic: the table of demos/automate_cmv_demo.py has one row for each chosen hour, in order, with the speed, direction and flag compute_cmv returns for the 361 samples from the hour on, and the number of GOOD pairs. (Violated: one hour with fewer than two GOOD pairs ends the run with a TypeError, the missing first sample after an hour with a KeyError. Proved: the table is completed exactly if neither happens.)", "quantifier": "every data set and hours", "why_tests_cant": "All data sets.", "anchors": ["src/solarspatialtools/cmv.py:compute_cmv"]}
{"id": "C189", "title": "The chosen cloud vectors are distinct and of good quality", "statement": "In exact arithmetic: if demos/automate_cmv_demo.py completes, it reports five (or all, if there are fewer) different kept rows, each from one of the 20 most variable hours with at least 200 GOOD pairs, correlation at least 0.85 and a speed that is neither NaN nor zero.", "quantifier": "every data set, every exact assignment solver, every scalar minimiser", "why_tests_cant": "All data sets.", "anchors": ["src/solarspatialtools/cmv.py:optimum_subset", "src/solarspatialtools/cmv.py:compute_cmv"]}
{"id": "C190", "title": "The clear mask depends only on the order of the values", "statement": "In exact arithmetic: _calc_clear_mask gives the same mask (or error) after any strictly increasing transformation of the field; rearranging the cells rearranges the mask; a larger clear_frac never makes a clear cell cloudy.", "quantifier": "every field, every strictly increasing transformation, every rearrangement, all fractions", "why_tests_cant": "All fields and transformations.", "anchors": ["src/solarspatialtools/synthirrad/cloudfield.py:_calc_clear_mask"]}
{"id": "C191", "title": "Cloud edges follow the symmetries of the mask", "statement": "In exact arithmetic: the edges of a transposed or mirrored mask are the transposed or mirrored edges, also after broadening by a filter (edgesmoothing); a larger filter and a lower threshold only add edges. (Violated: for an even filter size the broadened edges are shifted to one side, so that mirroring does not commute. Proved for odd sizes.)", "quantifier": "every mask, filter size and threshold", "why_tests_cant": "All masks and sizes.", "anchors": ["src/solarspatialtools/synthirrad/cloudfield.py:_find_edges"]}
{"id": "C192", "title": "The order of the random field is the order of the brightness", "statement": "In exact arithmetic: with scaling 'original' a cell with a larger value of the (nonnegative) random field is never brighter than another cell of its kind (cloud or edge); with 'basic', between the two quantiles, it is never darker, and with flipdistr never brighter.", "quantifier": "every field, masks and parameters with ktmax >= 1 and kt1pct <= 1", "why_tests_cant": "All fields and masks.", "anchors": ["src/solarspatialtools/synthirrad/cloudfield.py:_scale_field_lave", "src/solarspatialtools/synthirrad/cloudfield.py:_scale_field_basic"]}
{"id": "C193", "title": "Units of the random field do not matter", "statement": "In exact arithmetic: the scaled field is unchanged when the random field is multiplied by a positive number ('original') or transformed by an increasing affine map ('basic'); multiplying all weights of cloudfield_timeseries by a positive number does not change its result; normalising the stacked field changes neither the mask nor the 'basic' scaling; flipdistr is the change of sign of the field (for fields that exceed the two quantiles by at most the distance between them).", "quantifier": "every field, weights, scales and parameters", "why_tests_cant": "All fields and factors.", "anchors": ["src/solarspatialtools/synthirrad/cloudfield.py:cloudfield_timeseries", "src/solarspatialtools/synthirrad/cloudfield.py:_scale_field_basic", "src/solarspatialtools/synthirrad/cloudfield.py:_scale_field_lave", "src/solarspatialtools/synthirrad/cloudfield.py:_stack_random_field"]}
{"id": "C194", "title": "The resolution of the field is respected when a series is read", "statement": "In exact arithmetic: get_positional_ts(..., pixres) reads a field of pixres seconds per cell. (Violated: pixres is ignored; with 10 s per cell, 20 s return 21 cells. Proved for one second per cell: sample t is the cell at position + speed * t.)", "quantifier": "every field, position, speed, duration and resolution", "why_tests_cant": "All fields and positions.", "anchors": ["src/solarspatialtools/synthirrad/cloudfield.py:get_positional_ts"]}
{"id": "C195", "title": "A pool of worker processes gives the results of the serial loop", "statement": "In exact arithmetic: reading pool.imap(helper, args) (demos/field_demo_full_process_multithread.py) gives the results of the helper for the arguments in their order, or the exception that the serial loop raises first, whatever the number of workers and the order in which they finish; it never blocks and ends after at most three events per argument.", "quantifier": "every number of workers, every helper and arguments, every interleaving of events", "why_tests_cant": "Schedules cannot be enumerated; a test sees one.", "anchors": ["src/solarspatialtools/signalproc.py:compute_delays", "src/solarspatialtools/field.py:compute_predicted_position"]}
{"id": "C196", "title": "The multi-process procedure is the serial procedure", "statement": "In exact arithmetic: the complete reassignment procedure with a pool of workers has exactly one possible outcome, that of the procedure which predicts one combiner after the other: same rounds, same layout, same remap, same exception.", "quantifier": "every data set with distinct combiners, every number of workers, every interleaving in every round", "why_tests_cant": "Schedules cannot be enumerated; a test sees one.", "anchors": ["src/solarspatialtools/field.py:compute_predicted_position", "src/solarspatialtools/field.py:assign_positions", "src/solarspatialtools/field.py:cascade_remap"]}
{"id": "C197", "title": "The lag map shows the travel time from the reference sensor", "statement": "In exact arithmetic: the lags demos/cmv_demo.py extracts from the data object of compute_cmv for one reference sensor are, at every site, the delay of its series after that of the reference, with the right sign whichever comes first in the table of positions; for a pattern moving with velocity V it is the distance from the reference along V divided by the speed, negative upwind. With fewer than two GOOD pairs there is a TypeError instead.", "quantifier": "every data set, every reference, every order of the sites, all moving patterns", "why_tests_cant": "All orders of the sites and all data.", "anchors": ["src/solarspatialtools/cmv.py:compute_cmv", "src/solarspatialtools/cmv.py:_get_pairs"]}
{"id": "C198", "title": "The normalisation of the cloud motion demonstration removes the units", "statement": "In exact arithmetic: kt = data / mean of the 0.95-quantiles (demos/cmv_demo.py) is the same for data in any units, and the mean of its 0.95-quantiles is 1.", "quantifier": "every data set with missing samples, every positive factor", "why_tests_cant": "All data and factors.", "anchors": ["src/solarspatialtools/cmv.py:compute_cmv"]}
{"id": "C199", "title": "Converting ktlim replaces the normalisation", "statement": "In exact arithmetic: instead of normalising the data one can convert the quality control parameters to the scale of the raw data (comment in demos/cmv_demo.py): compute_cmv then gives the same speed, direction and data object. (Violated: the limit 0.001 of the standard deviation is no option, so a motion found in one unit is not found in units 1000 times as large, whatever ktlim is. Proved if no series is below that limit in one of the units only.)", "quantifier": "every data set, sites, method and positive factor", "why_tests_cant": "All data and factors.", "anchors": ["src/solarspatialtools/cmv.py:compute_cmv", "src/solarspatialtools/cmv.py:_pairwise_qc"]}
{"id": "C200", "title": "Effect of inexact delays on a predicted position", "statement": "In exact arithmetic: with delays off by bounded amounts (sites otherwise right, cloud vectors exact), the predicted position moves, along each cloud motion, by exactly |V|^2 times the mean of the errors over the combiners used; with errors of at most eps1 and eps2 its distance from the true place is at most (eps1 |V1| + eps2 |V2|) / |sin| of the angle between the motions. Otherwise it is NaN, exactly if one of the two mean relative delays is zero.", "quantifier": "every site, all delay errors, all pairs of non-parallel cloud vectors, every downselection mode", "why_tests_cant": "All errors and geometries.", "anchors": ["src/solarspatialtools/field.py:compute_predicted_position", "src/solarspatialtools/spatial.py:compute_intersection"]}
{"id": "C201", "title": "Effect of a wrong cloud vector on a predicted position", "statement": "In exact arithmetic: if the cloud vectors handed to compute_predicted_position are not the ones that caused the delays, the prediction misses by an explicit amount that depends only on the offset of the combiner from the centre of the combiners used; a combiner at that centre is found with any non-parallel vectors.", "quantifier": "every site, all true and assumed cloud vectors, every downselection mode", "why_tests_cant": "All vectors and geometries.", "anchors": ["src/solarspatialtools/field.py:compute_predicted_position", "src/solarspatialtools/spatial.py:compute_intersection"]}
{"id": "C202", "title": "Reassignment tolerates inexact delays", "statement": "In exact arithmetic: if the combiners of a site are mixed up and the delays are inexact by at most eps1, eps2, iterated reassignment (downselect 'all') still finds the true mapping in the first round, confirms it in every further round and corrects the table, provided places are more than 2B apart, where B is the bound of C200, and every misplaced combiner is displaced along both motions by more than the noise.", "quantifier": "every site, every permutation, all delay errors below the bounds, any number of rounds", "why_tests_cant": "All permutations, errors and round counts.", "anchors": ["src/solarspatialtools/field.py:compute_predicted_position", "src/solarspatialtools/field.py:assign_positions", "src/solarspatialtools/field.py:cascade_remap", "src/solarspatialtools/field.py:remap_positions"]}
{"id": "C203", "title": "The complete reassignment procedure tolerates inexact delays", "statement": "In exact arithmetic: the procedure of demos/field_demo_full_process.py (mean of the predictions of all pairs of windows, assignment per inverter, repeated until nothing changes; downselect 'all') finds every mix-up within inverters in at most two rounds and reports convergence, if no delay is off by more than D metres of cloud travel, places of one inverter are more than 4 sqrt(2) D apart, and every misplaced combiner is displaced by more than D along both motions of some kept pair of windows.", "quantifier": "every plant in which no inverter's name is part of another's, every permutation within inverters, any number of windows, all delay errors within D", "why_tests_cant": "All permutations, errors and wind combinations.", "anchors": ["src/solarspatialtools/field.py:compute_predicted_position", "src/solarspatialtools/field.py:assign_positions", "src/solarspatialtools/field.py:cascade_remap"]}
{"id": "C204", "title": "compute_cmv (gagne) with inexact delays", "statement": "In exact arithmetic: with method 'gagne' the travel times of the motion returned are, in the root mean square over the GOOD pairs, not farther from those of the true motion than the measured delays are; with N GOOD pairs and delays off by at most eps, the velocity vector returned is within s s0 eps sqrt(N) (|p| + |q|) / |p x q| of the true one, for the vectors p, q of any two GOOD pairs, and it is not NaN if some travel time exceeds eps sqrt(N).", "quantifier": "every data set, sites and reference for which compute_cmv finds two GOOD pairs, every true motion, all delay errors", "why_tests_cant": "All data and errors.", "anchors": ["src/solarspatialtools/cmv.py:compute_cmv"]}
{"id": "C205", "title": "compute_cmv (jamaly) with inexact delays", "statement": "In exact arithmetic: with method 'jamaly' the direction returned is the best of all directions (not only a local optimum): in no direction do the apparent speeds of the GOOD pairs scatter less. If the delays are those of a motion (s0, theta0) up to a relative error rho, sin^2(theta - theta0) times the scatter of the pair velocities is at most 2 (s0 rho)^2, and the speed returned is within s0 rho + M |sin(theta - theta0)| of s0 cos(theta - theta0).", "quantifier": "every data set, sites and reference for which compute_cmv finds two GOOD pairs, every true motion, all delay errors", "why_tests_cant": "All data and errors.", "anchors": ["src/solarspatialtools/cmv.py:compute_cmv"]}
{"id": "C206", "title": "The plant varies at most as much as its sensors do on average", "statement": "In exact arithmetic: for complete records on one index, the DARR of the aggregate of demos/signalproc_demo.py (sum over the sensors divided by their number) is at most the mean DARR of the sensors, for every tau, with and without averaging and pct, and its variability index is at most the mean of the indices of the sensors. An index that cannot be averaged is refused alike for the plant and every sensor.", "quantifier": "every number of sensors, index, complete records, tau, options, clear-sky series", "why_tests_cant": "The input domain is infinite (all reals / all lengths); a unit test samples a handful of points.", "anchors": ["demos/signalproc_demo.py:main", "src/solarspatialtools/stats.py:darr", "src/solarspatialtools/stats.py:variability_index"]}
{"id": "C207", "title": "The variability score and averages", "statement": "In exact arithmetic: the variability score is at most the mean ramp magnitude (DARR divided by the number of ramps), whatever is missing; so the score of a plant is at most the mean over its sensors of that. (The stronger claim that the plant scores at most the mean, or the largest, score of its sensors, as the other metrics do, is violated: two sensors with score 1/4 can have an aggregate with score 3/8.)", "quantifier": "every series with missing samples, tau, number of sensors", "why_tests_cant": "The input domain is infinite (all reals / all lengths); a unit test samples a handful of points.", "anchors": ["src/solarspatialtools/stats.py:variability_score", "src/solarspatialtools/stats.py:darr", "demos/signalproc_demo.py:main"]}
{"id": "C208", "title": "Time scales in seconds", "statement": "In exact arithmetic: on a regular index with a step below b whole seconds the score over b seconds (tau = b / dt) is the score of the means over consecutive intervals of b seconds, whatever the step; with a step of b seconds it is the score of the record. Averaging a complete record over groups of k samples beforehand does not change its means over m k samples.", "quantifier": "every regular index, record, step, interval", "why_tests_cant": "The input domain is infinite (all reals / all lengths); a unit test samples a handful of points.", "anchors": ["demos/signalproc_demo.py:main", "src/solarspatialtools/stats.py:variability_score"]}
{"id": "C209", "title": "The aggregate of a plant is the mean of its sensors", "statement": "In exact arithmetic: every value of the aggregate lies between the smallest and the largest value of the sensors at that time. (Violated with missing samples: sum(axis=1) / len(plant_pts) counts a missing sample as 0, so the aggregate of K sensors that see the same irradiance g and of which m miss the sample is g (K - m) / K, and 0 instead of NaN when all miss it; for nonnegative data missing samples can only lower the aggregate.)", "quantifier": "every number of sensors, rows and records with missing samples", "why_tests_cant": "The input domain is infinite (all reals / all lengths); a unit test samples a handful of points.", "anchors": ["demos/signalproc_demo.py:main"]}
{"id": "C210", "title": "Errors of the aggregate", "statement": "In exact arithmetic: against any complete record, the mean bias of the aggregate of complete sensors is the mean of their mean biases, its mean squared error is the mean of theirs less the mean squared distance of the sensors from the aggregate, and its root mean square and mean absolute errors are at most the means of theirs.", "quantifier": "every number of sensors, records of one length, reference record", "why_tests_cant": "The input domain is infinite (all reals / all lengths); a unit test samples a handful of points.", "anchors": ["demos/signalproc_demo.py:main", "src/solarspatialtools/stats.py:rmse", "src/solarspatialtools/stats.py:mse", "src/solarspatialtools/stats.py:mae", "src/solarspatialtools/stats.py:mbe"]}
{"id": "C211", "title": "Export of the digitized combiners", "statement": "In exact arithmetic: the dictionary that the digitization notebook builds from the outlines of a plant lists every combiner of the file with the centroid of its own outline. (Violated: the names are taken from the rows of kind combiner but the coordinates from all rows, so the assignment fails as soon as one outline is of another kind; proved for files with combiners only.)", "quantifier": "every file of named outlines of any kinds", "why_tests_cant": "The input domain is infinite (all reals / all lengths); a unit test samples a handful of points.", "anchors": ["demos/plant_digitization_example.ipynb:cell 15"]}
{"id": "C212", "title": "The walk-through notebook computes what the library computes", "statement": "In exact arithmetic: the step by step calculation of the detailed field notebook (positions and errors for both cloud vectors, selection of the most coherent sites without the reference, mean errors, intersection) gives the position compute_predicted_position predicts in mode 'preavg' with the same number of sites. (Violated when a site has no coherence: the notebook sorts the table with its NaN last and drops the last row, so it drops that site instead of the reference and averages in the zero error of the reference; the point it finds is short of the true one by the factor (n-2)/(n-1). Proved when all coherences are numbers.)", "quantifier": "every layout, reference, pair of nonzero cloud vectors, delays, coherences, number of sites n >= 1", "why_tests_cant": "The input domain is infinite (all reals / all lengths); a unit test samples a handful of points.", "anchors": ["demos/field_demo_detailed.ipynb:cell 5", "demos/field_demo_detailed.ipynb:cell 9", "demos/field_demo_detailed.ipynb:cell 11", "src/solarspatialtools/field.py:compute_predicted_position"]}
{"id": "C213", "title": "A downwind site repeats the upwind series", "statement": "In exact arithmetic: with regular times, if one site lies k time steps of cloud motion downwind of another, the simulated series of the downwind site is the series of the upwind one k samples later, value by value and for the whole record, with every seed, generator and option.", "quantifier": "every regular time axis, layout, cloud speed and direction, k, parameters, options, draws", "why_tests_cant": "The input domain is infinite (all reals / all lengths); a unit test samples a handful of points.", "anchors": ["demos/synthetic_copula_demo.py:demonstrate_downscaling", "src/solarspatialtools/synthirrad/copula.py:downscale"]}
{"id": "C214", "title": "The law of simulated values depends only on distances in the frame of the clouds", "statement": "In exact arithmetic: the joint distribution of any finite family of values of the unscaled field is determined by the mutual distances of their points in the frame moving with the clouds: two families from different calls, layouts, time axes or cloud velocities with the same distances have the same joint distribution. So it does not change with the origin of the coordinates or of the time axis, with the other sites and times simulated in the call, or with the calls made before.", "quantifier": "every pair of settings, families of any size, mean index, parameters, probability space", "why_tests_cant": "The input domain is infinite (all reals / all lengths); a unit test samples a handful of points.", "anchors": ["src/solarspatialtools/synthirrad/copula.py:downscale", "src/solarspatialtools/synthirrad/copula.py:_space_time_copula", "demos/synthetic_copula_demo.py:demonstrate_downscaling"]}
{"id": "C215", "title": "The rake image is statistically the same along and across the wind", "statement": "In exact arithmetic: the image of demonstrate_multiple_speeds (a row of sites across the wind spaced by the cloud motion per time step) and its transpose have the same joint distribution, scaled or not; more generally this holds for two whole fields whose points correspond one to one with equal distances in the frame of the clouds.", "quantifier": "every image size, step, speed, mean index, parameters, scaling, seed, probability space", "why_tests_cant": "The input domain is infinite (all reals / all lengths); a unit test samples a handful of points.", "anchors": ["demos/synthetic_copula_demo.py:demonstrate_multiple_speeds", "src/solarspatialtools/synthirrad/copula.py:downscale"]}
{"id": "C216", "title": "Values covary more the closer their points are in the frame of the clouds", "statement": "In exact arithmetic: the covariance of two values of the unscaled field is never negative, is at most the variance of a single value, which is the same at every site and time, and does not increase when the distance of the two points in the frame of the clouds increases, also across different layouts, times and cloud velocities.", "quantifier": "every pair of settings, points, mean index, parameters, probability space", "why_tests_cant": "The input domain is infinite (all reals / all lengths); a unit test samples a handful of points.", "anchors": ["src/solarspatialtools/synthirrad/copula.py:downscale", "src/solarspatialtools/synthirrad/copula.py:_space_time_copula", "demos/synthetic_copula_demo.py:demonstrate_downscaling"]}
{"id": "C217", "title": "The lag of the largest covariance is the travel time of the clouds", "statement": "In exact arithmetic: for the unscaled field the covariance of the series of two sites, as a function of the lag, is largest at the along-wind separation divided by the cloud speed and does not increase away from that lag on either side. In particular sites side by side across the wind covary most at lag zero.", "quantifier": "every layout, pair of sites, times, nonzero cloud speed, direction, mean index, parameters, probability space", "why_tests_cant": "The input domain is infinite (all reals / all lengths); a unit test samples a handful of points.", "anchors": ["demos/synthetic_copula_demo.py:demonstrate_downscaling", "src/solarspatialtools/synthirrad/copula.py:downscale"]}
{"id": "C218", "title": "Spreading a plant out does not increase the variability of its mean", "statement": "In exact arithmetic: for the unscaled field the variance of the mean over the sites of a plant is at most the variance of a single site, and it does not increase when the sites are moved so that no two of them get closer.", "quantifier": "every pair of layouts with the same number of sites, times, cloud velocities, mean index, parameters, probability space", "why_tests_cant": "The input domain is infinite (all reals / all lengths); a unit test samples a handful of points.", "anchors": ["src/solarspatialtools/synthirrad/copula.py:downscale"]}
{"id": "C219", "title": "Faster clouds give larger ramps", "statement": "In exact arithmetic: for the unscaled field the mean square change of the value of a site over a time step does not decrease when the product of cloud speed and time step increases; more generally the mean square difference of two values does not decrease with the distance of their points in the frame of the clouds.", "quantifier": "every pair of settings, times, sites, mean index, parameters, probability space", "why_tests_cant": "The input domain is infinite (all reals / all lengths); a unit test samples a handful of points.", "anchors": ["src/solarspatialtools/synthirrad/copula.py:downscale", "demos/synthetic_copula_demo.py:demonstrate_multiple_speeds"]}
{"id": "C220", "title": "tf_delay tolerates phase errors", "statement": "In exact arithmetic: if the phase of the transfer function differs from that of a pure delay by at most e in the bins concerned and neither the first phase nor the true phase steps come within that error of half a turn, tf_delay finds the delay up to a bound linear in e: with 'multi' the error is at most e n / (2 pi times the sum of the n usable frequencies), with 'fit' at most e times the sum of the frequencies over 2 pi times the sum of their squares, with 'diff' at most e / (pi times the bin spacing). The magnitudes do not matter.", "quantifier": "every number of bins, frequencies, magnitudes, phases with errors up to e, coherences, limits", "why_tests_cant": "The input domain is infinite (all reals / all lengths); a unit test samples a handful of points.", "anchors": ["src/solarspatialtools/signalproc.py:tf_delay"]}
{"id": "C221", "title": "The delay between two records of one pattern, with the edges of the windows", "statement": "In exact arithmetic: compute_delays_tf on two records of the same pattern, the second m samples later, is off from m time steps by at most r T / (2 K) with 'multi' and 3 r T / (4 (2 K + 1)) with 'fit', where T is the segment length in seconds, K the number of the last bin below the frequency limit and r bounds, in every such bin, the ratio of the edge effect of the window to the spectrum of the pattern (root mean squares over the segments), as long as the coherence limit is below ((1-r)/(1+r))^2 and 2|m| is below (1-r) times the segment length. For a pattern bounded by A the edge effect is at most A |m| times the total variation of the window, with the default Hamming window at most 2 A |m|.", "quantifier": "every pattern, record length, shift, window, number of averages, overlap, detrending, limits", "why_tests_cant": "The input domain is infinite (all reals / all lengths); a unit test samples a handful of points.", "anchors": ["src/solarspatialtools/signalproc.py:compute_delays_tf", "src/solarspatialtools/signalproc.py:averaged_tf", "src/solarspatialtools/signalproc.py:tf_delay"]}
{"id": "C222", "title": "Cloud motion from transfer-function delays of one pattern", "statement": "In exact arithmetic: when all sites record one pattern carried by a constant wind, compute_cmv with backend 'tf' uses for every pair a delay within r T / (2 K) of the travel time (T the length of a segment, a fifth of the record; K the last bin below 0.02 Hz; r the relative size of the edge effects of the window in the bins below 0.02 Hz, small enough that the coherence limit 0.6 is met), and the velocity gagne returns differs from the wind by at most the corresponding bound of C204. If no window cuts a mean-free pattern, two independent pairs with nonzero lags through the reference suffice for gagne to return exactly the speed and direction of the wind; jamaly does so too and flags the result GOOD if the two pairs are also within the velocity limits.", "quantifier": "every pattern, sample rate, record length, layout, wind, reference, options", "why_tests_cant": "The input domain is infinite (all reals / all lengths); a unit test samples a handful of points.", "anchors": ["src/solarspatialtools/cmv.py:compute_cmv", "src/solarspatialtools/cmv.py:_gagne_cmv_method", "src/solarspatialtools/signalproc.py:compute_delays_tf"]}
{"id": "C223", "title": "Opposite phases, opposite delay", "statement": "In exact arithmetic: if the phases of a transfer function change sign below the frequency limit (frequencies and coherences unchanged), tf_delay returns the opposite delay and the same mask with 'multi', 'fit' and (phases of all bins) 'diff'. Hence exchanging the two records passed to compute_delays_tf changes the sign of the delay and leaves the mask and the mean coherence as they are, unless a bin below the limit has no transfer function or a phase of exactly half a turn.", "quantifier": "every pair of records, options, limits; every transfer function with no phase of half a turn", "why_tests_cant": "The input domain is infinite (all reals / all lengths); a unit test samples a handful of points.", "anchors": ["src/solarspatialtools/signalproc.py:tf_delay", "src/solarspatialtools/signalproc.py:compute_delays_tf", "src/solarspatialtools/signalproc.py:averaged_tf"]}
{"id": "C224", "title": "Stretching the time axis", "statement": "In exact arithmetic: if the same samples are stamped c times further apart and the frequency limit is divided by c, compute_delays_tf returns delays c times as long, the same masks and mean coherences, or the same error; and compute_predicted_position, with the cloud vectors divided by c as well, returns the same position and the same tables apart from the stretched delays, in every mode. (Method 'fit' needs a usable bin with a frequency other than 0: with only bin 0 the start value 1 of the fit is returned, whatever the time axis.)", "quantifier": "every c > 0, data sets, layout, reference, cloud vectors, mode, limits, number of averages", "why_tests_cant": "The input domain is infinite (all reals / all lengths); a unit test samples a handful of points.", "anchors": ["src/solarspatialtools/signalproc.py:compute_delays_tf", "src/solarspatialtools/field.py:compute_predicted_position"]}
{"id": "C225", "title": "Values decorrelate exponentially with distance", "statement": "In exact arithmetic: for the unscaled field the correlation of two values is at most exp(-p d), with d the distance of their points in the frame of the clouds and p = max(corr_quadr K (1-K), 1e-5). Hence the variance of the mean over n sites is at most that of one site times the average of exp(-p d) over all pairs of sites, at most 1/n + exp(-p D) times it when the sites are at least D apart, and the mean square difference of two values is at least 2 (1 - exp(-p d)) times the variance.", "quantifier": "every setting, points, mean index, parameters, probability space", "why_tests_cant": "The input domain is infinite (all reals / all lengths); a unit test samples a handful of points.", "anchors": ["src/solarspatialtools/synthirrad/copula.py:downscale", "src/solarspatialtools/synthirrad/copula.py:_space_time_copula"]}
{"id": "C226", "title": "Moments and range of the random fields", "statement": "In exact arithmetic: with independent uniform numbers in the grids, every cell of the stacked random field (before normalisation) has half the total weight as its mean and a variance between 1/48 and 1/12 of the sum of the squared weights; the covariance of two cells is between 0 and 1/12 of that sum; and two cells that are at least two grid steps apart in rows or in columns at every scale are independent.", "quantifier": "every list of weights and scales of equal length, field size, pair of cells, probability space", "why_tests_cant": "The input domain is infinite (all reals / all lengths); a unit test samples a handful of points.", "anchors": ["src/solarspatialtools/synthirrad/cloudfield.py:_stack_random_field", "src/solarspatialtools/synthirrad/cloudfield.py:_random_at_scale"]}
{"id": "C227", "title": "The law of a generated cloud field has no preferred direction", "statement": "In exact arithmetic: with independent uniform numbers in all grids, any event about the field that cloudfield_timeseries returns (or the error it raises) has the same probability if the rows of the field are reversed, and if the columns are reversed (for the scaling 'basic' if the edge smoothing is odd, as by default); and a field of n by m cells has the law of the transposed field of m by n cells. In particular mirrored cells are equally likely to be clear or to have a value in any given set.", "quantifier": "every list of weights and scales, field size, clear fraction, clear sky indices, scaling, edge smoothing, event", "why_tests_cant": "The input domain is infinite (all reals / all lengths); a unit test samples a handful of points.", "anchors": ["src/solarspatialtools/synthirrad/cloudfield.py:cloudfield_timeseries", "src/solarspatialtools/synthirrad/cloudfield.py:_stack_random_field", "src/solarspatialtools/synthirrad/cloudfield.py:_find_edges", "src/solarspatialtools/synthirrad/cloudfield.py:_scale_field_lave", "src/solarspatialtools/synthirrad/cloudfield.py:_scale_field_basic"]}
{"id": "C228", "title": "The averaged spectrum of white noise", "statement": "In exact arithmetic: averaged_psd of a record of white noise (mean 0, standard deviation s, uncorrelated samples) has at every bin the expected value 2 dt s^2 (dt s^2 at frequency 0 and at the Nyquist frequency) without detrending, exactly this times 1 - |W_k|^2/(L sum w^2) when the mean of the segments is removed (w the window, W its transform, L the segment length), and at most this with linear detrending, the default.", "quantifier": "every law of the noise, record length, number of averages, overlap in [0,1), window with a nonzero entry, time step", "why_tests_cant": "The input domain is infinite (all reals / all lengths); a unit test samples a handful of points.", "anchors": ["src/solarspatialtools/signalproc.py:averaged_psd"]}
{"id": "C229", "title": "Measurement noise in the output of a transfer function", "statement": "In exact arithmetic: if white noise is added to the output passed to averaged_tf, the bins without input power stay NaN, and at every other bin the transfer function is an unbiased estimate of the one without noise; its mean squared error is at most m/navgs times the ratio of the noise density to averaged_psd of the input at the bin, where m is the number of segments sharing a sample (1 without overlap, 2 for the default overlap), so that the probability of an error of eps or more is at most that bound over eps^2.", "quantifier": "every law of the noise, input, output, number of averages, overlap in [0,1), window, detrending, bin", "why_tests_cant": "The input domain is infinite (all reals / all lengths); a unit test samples a handful of points.", "anchors": ["src/solarspatialtools/signalproc.py:averaged_tf", "src/solarspatialtools/signalproc.py:averaged_psd"]}
{"id": "C230", "title": "Delays from the cross-correlation of noisy records", "statement": "In exact arithmetic: compute_delays on records x+f and y+e finds a lag whose correlation of x and y without the disturbances is within 2(|f||y|+|x||e|+|f||e|) of the largest one (|.| the root of the sum of squares, of x and y without their means for the scaling 'coeff'), and returns minus that lag times dt, or 0 where the peak is below 1e-10. If white noise of standard deviation s is added to the second record, the probability of missing the lag of the largest correlation is at most the sum over all other lags of 4 s^2 E / gap^2, where E is the energy of the first record and gap the amount by which the correlation at that lag falls short of the largest; for a record that repeats the first m samples later this bounds the probability of missing the delay m dt, with the gaps E minus the autocorrelations.", "quantifier": "every record, disturbance, law of the noise, time step, mode, scaling", "why_tests_cant": "The input domain is infinite (all reals / all lengths); a unit test samples a handful of points.", "anchors": ["src/solarspatialtools/signalproc.py:compute_delays"]}
{"id": "C231", "title": "Cloud motion from noisy records", "statement": "In exact arithmetic: if all sites record one mean-free pattern carried by a constant wind, each with a disturbance of size at most e (root of the sum of squares), and the autocorrelation of the pattern at every lag other than 0 falls short of its energy E by more than 2 e (2 sqrt(E) + e), then every pair that compute_cmv (backend 'xcorr') flags GOOD has exactly the travel time as its delay, so that gagne and jamaly return exactly the speed and direction of the wind as soon as two GOOD pairs are not parallel. With white noise of standard deviation s at N sites with n samples each, a GOOD pair with a wrong delay occurs with probability at most N n s^2 / e^2.", "quantifier": "every pattern, wind, layout, reference, background levels, disturbances, law of the noise, options", "why_tests_cant": "The input domain is infinite (all reals / all lengths); a unit test samples a handful of points.", "anchors": ["src/solarspatialtools/cmv.py:compute_cmv", "src/solarspatialtools/signalproc.py:compute_delays"]}
{"id": "C232", "title": "Delays from transfer functions with measurement noise", "statement": "In exact arithmetic: white noise is added to the output record passed to compute_delays_tf. If without noise the transfer function H has, below the frequency limit, the phase of a delay t up to e, then the probability that a delay is returned with a usable bin other than the first and an error above e T/pi + r T/2 ('multi'; T the segment length in seconds) or e T/(2 pi) + r T/4 ('fit') is at most the sum over the bins below the limit of m/navgs times the noise-to-signal ratio over (r |H|)^2, where m is the number of segments sharing a sample; provided 2 pi |t|/T (for 'fit': 2 pi |t| times the limit) plus 2e + pi r is below pi.", "quantifier": "every law of the noise, records, number of averages, overlap in [0,1), window, coherence limit, frequency limit, r in (0,1)", "why_tests_cant": "The input domain is infinite (all reals / all lengths); a unit test samples a handful of points.", "anchors": ["src/solarspatialtools/signalproc.py:compute_delays_tf", "src/solarspatialtools/signalproc.py:averaged_tf", "src/solarspatialtools/signalproc.py:tf_delay"]}
{"id": "C233", "title": "A fan of directions among the cloud vectors is found", "statement": "In exact arithmetic: if the vectors passed to optimum_subset contain n whose directions (up to sign) are spaced by pi/n within 1 - e in |cos|, and the minimiser comes within t of the best angle, the n distinct indices returned belong to vectors that follow such a fan within 1 - (n e + t), the k-th the direction a + k pi/n. With e = t = 0 no two chosen vectors are parallel or opposite, two of them include |k - l| pi/n (up to sign), and for even n each of the first n/2 is exactly perpendicular to the one n/2 places later.", "quantifier": "every list of nonzero vectors containing such a fan, n >= 1, e, t, exact assignment solver, minimiser within t", "why_tests_cant": "The input domain is infinite (all reals / all lengths); a unit test samples a handful of points.", "anchors": ["src/solarspatialtools/cmv.py:optimum_subset"]}
{"id": "C234", "title": "Positions predicted from the records of two patterns", "statement": "In exact arithmetic: two data sets hold records of patterns passing the true places of the sensors with velocities V1 and V2 (not parallel); the edge effects of the segments are at most the part r of the spectrum below the frequency limit, and the coherence limit is below ((1-r)/(1+r))^2. compute_predicted_position with these cloud vectors ('multi' or 'fit', every mode) succeeds, and if the sensors are where the table says, except perhaps the reference, returns NaN or a place within (e1|V1|+e2|V2|)/sin(angle) of the true place of the reference, where e = r T/(2K) ('multi') or 3 r T/(4(2K+1)) ('fit'), T the segment length in seconds and K the last bin used. Without edge effects the place is exact, and NaN appears exactly when no sensor is selected or the displacement of the reference is perpendicular to one of the motions. The reassignment procedure of the demo (mode 'all') finds mixed-up sensors from the records when the places in the table are more than twice these errors apart and the displacement of every misplaced sensor along each motion exceeds the error of that motion.", "quantifier": "every pattern pair, layout, mix-up, velocities, number of averages, segment lengths, limits, method, mode", "why_tests_cant": "The input domain is infinite (all reals / all lengths); a unit test samples a handful of points.", "anchors": ["src/solarspatialtools/field.py:compute_predicted_position", "src/solarspatialtools/signalproc.py:compute_delays_tf", "src/solarspatialtools/signalproc.py:averaged_tf", "demos/field_reassignment_demo.py"]}
{"id": "C235", "title": "Every flag has a description", "statement": "In exact arithmetic: every flag that compute_cmv can report has a description under Flag.DESCS. Violated: the assignment inside the Enum makes DESCS a thirteenth member, so that a loop over Flag meets a value that is no flag; that member cannot be subscripted at all (TypeError); the dictionary behind it is keyed by the numbers and not by the flags, and has no entry for STATS. Proved: Flag.DESCS.value[f.value] is a nonempty text for every flag except STATS, different flags have different texts, and compute_cmv never reports STATS, neither for a pair nor overall.", "quantifier": "every flag, every successful call of compute_cmv", "why_tests_cant": "The input domain is infinite (all reals / all lengths); a unit test samples a handful of points.", "anchors": ["src/solarspatialtools/cmv.py:Flag", "src/solarspatialtools/cmv.py:compute_cmv"]}
{"id": "C236", "title": "The dictionary of a result of compute_cmv is complete", "statement": "In exact arithmetic: to_dict of the data object holds the eleven fields in the order of the class. With at least two GOOD pairs all of them are filled (pair_coh only with backend 'tf'), wind_speed and wind_angle are the values returned, corr_raw and pair_coh hold one value per pair, corr_raw being the correlation coefficient at lag 0 of the pair's two records with either backend and the mean coherence lying in [0,1]. With at most one GOOD pair only the pairs, their flags and ALLBAD are set.", "quantifier": "every table of records, positions, reference, method, backend, options", "why_tests_cant": "The input domain is infinite (all reals / all lengths); a unit test samples a handful of points.", "anchors": ["src/solarspatialtools/cmv.py:WindspeedData", "src/solarspatialtools/cmv.py:compute_cmv"]}
{"id": "C237", "title": "Positions predicted from noisy records", "statement": "In exact arithmetic: as in the property about records of two patterns, but every sensor, the reference included, adds its own disturbance. If in every bin used the disturbance of each sensor (root mean square over the segments) is at most the part h of the spectrum of the pattern, compute_predicted_position still succeeds and returns NaN or a place within the same bound with r replaced by (r + 2h)/(1 - h). With white noise of standard deviation s (any law, sensors may be correlated) the probability that this fails is at most the number of sensors times the sum, over both data sets and the bins used, of S s^2 sum(w^2) over h^2 times the power of the pattern in the bin (S segments, window w). The reassignment procedure of the demo finds mixed-up sensors with the corresponding probability.", "quantifier": "every pattern pair, layout, mix-up, velocities, law of the noise, number of averages, segment lengths, limits, method, mode, h in (0,1)", "why_tests_cant": "The input domain is infinite (all reals / all lengths); a unit test samples a handful of points.", "anchors": ["src/solarspatialtools/field.py:compute_predicted_position", "src/solarspatialtools/signalproc.py:compute_delays_tf", "src/solarspatialtools/signalproc.py:averaged_tf", "demos/field_reassignment_demo.py"]}
{"id": "C238", "title": "Cloud motion with backend 'tf' from noisy records", "statement": "In exact arithmetic: all sites record one pattern carried by a constant wind, each with its own disturbance. If in every bin below 0.02 Hz the disturbance of each site (root mean square over the segments) is at most the part h of the spectrum of the pattern, compute_cmv with backend 'tf' uses for every pair a delay within g T/(2K) of the travel time, where g = (r + 2h)/(1 - h), r is the relative size of the edge effects, T the length of a segment and K the last bin below 0.02 Hz (g small enough that the coherence limit 0.6 is met), and the velocity of gagne differs from the wind by no more than follows from it; the bounds of C205 hold for jamaly with the relative error d/(T' - d), where d is the bound on the delays and T' > d the shortest travel time along a GOOD pair. With white noise of standard deviation s at every site (any law, sites may be correlated) the probability that a returned table violates this is at most the number of sites times the sum over the bins used of S s^2 sum(w^2) over h^2 times the power of the pattern in the bin (S segments, window w).", "quantifier": "every pattern, sample rate, record length, layout, wind, reference, options, disturbances, law of the noise, h in (0,1)", "why_tests_cant": "The input domain is infinite (all reals / all lengths); a unit test samples a handful of points.", "anchors": ["src/solarspatialtools/cmv.py:compute_cmv", "src/solarspatialtools/cmv.py:_gagne_cmv_method", "src/solarspatialtools/signalproc.py:compute_delays_tf", "src/solarspatialtools/signalproc.py:averaged_tf"]}
{"id": "C239", "title": "Low and high values of the random cloud fields are alike", "statement": "In exact arithmetic: the numbers of all random grids are independent and uniform on [0,1). A stacked random field has the same law as the field mirrored at half the total weight, so that a cell lies as often some amount below half the total weight as above it; a normalised field has the law of 1 minus itself. Therefore flipdistr of the scaling 'basic' has no effect on the law of the generated field on the draws for which no cell lies further outside the two quantiles than their distance (beyond it the fold at the quantiles is not symmetric).", "quantifier": "every weights, scales, size, clear fraction, edge smoothing, targets, clear sky smoothing, event", "why_tests_cant": "The input domain is infinite (all reals / all lengths); a unit test samples a handful of points.", "anchors": ["src/solarspatialtools/cloudfield.py:_stack_random_field", "src/solarspatialtools/cloudfield.py:_scale_field_basic", "demos/synthetic_clouds_internal_demo.py"]}
{"id": "C240", "title": "The three histograms separate cloudy area, clear sky and edges", "statement": "In exact arithmetic: the histograms drawn by the scaling functions and by the demonstration show the values of cloudy, clear and edge cells under the labels 'Cloudy Area', 'Clear Sky' and 'Edge Enhancement'. Violated: the edge cell with the densest cloud is exactly 1 and counted as clear sky, cloudy cells can exceed 1 and be counted as edges, and with the clear sky smoothing of the demonstration clear cells are counted as cloudy area. Proved: with the original scaling, and with 'basic' without smoothing when no cell is far outside the quantiles, the cloudy histogram holds only cells neither clear nor at an edge, all clear cells are in the second one, and each cell is in exactly one of the three unless it is NaN; with 'basic' after its warning the third holds edge cells only.", "quantifier": "every field, masks, targets with ktmax >= 1", "why_tests_cant": "The input domain is infinite (all reals / all lengths); a unit test samples a handful of points.", "anchors": ["src/solarspatialtools/cloudfield.py:_scale_field_lave", "src/solarspatialtools/cloudfield.py:_scale_field_basic", "demos/synthetic_clouds_internal_demo.py"]}
{"id": "C241", "title": "The description of a flag is true of the pairs that carry it", "statement": "In exact arithmetic: in every result of compute_cmv the description of the flag (Flag.DESCS) of a pair holds for this pair. Violated: OVERCAST (\"in both signals\") is given when one signal is low; LOWCORR (\"<0.8\") is given by gagne to every correlation below 0.9; VELLIMIT (\"Low velocity limit\") is given to pairs that are too fast; NOSIGNAL (\"zero variance\") is given to signals varying by less than 0.001; a pair for which no lag was computed (NaN) is not NOLAG and can be GOOD under gagne; ALLBAD (\"no good datapoints\") is the overall flag of every gagne result with fewer than 12 pairs, however many are GOOD. Proved: SAME, NOLAG and LOWVAR_S are true of their pairs, the other flags imply the weaker conditions the code tests, and no pair carries LOWCCF, STATS, ALLBAD or TREND.", "quantifier": "every table, positions, reference, method, backend, options", "why_tests_cant": "The input domain is infinite (all reals / all lengths); a unit test samples a handful of points.", "anchors": ["src/solarspatialtools/cmv.py:Flag", "src/solarspatialtools/cmv.py:compute_cmv", "src/solarspatialtools/cmv.py:_gagne_cmv_method"]}
{"id": "C242", "title": "The complete reassignment procedure from noisy records of any number of windows", "statement": "In exact arithmetic: the procedure of demos/field_demo_full_process.py (mean of the predictions of all pairs of windows more than 45 degrees apart, assignment per inverter, repeated until nothing changes; downselect 'all') with the delays compute_delays_tf finds in the records: every window records its own pattern passing the true places of the combiners with the velocity of the window, with edge effects of at most the part r of the spectrum below the frequency limit. If the resulting errors of the delays (r T/(2K) for 'multi', 3 r T/(4(2K+1)) for 'fit') are at most D metres of cloud travel in every window, places of one inverter are more than 4 sqrt(2) D apart, and every misplaced combiner is displaced by more than D along both motions of some kept pair of windows, every mix-up within inverters is found in at most two rounds. With white noise of standard deviation s at every combiner (any law, combiners may be correlated), r replaced by (r + 2h)/(1 - h), the probability that a delay cannot be computed or the procedure does not find the mix-up is at most the number of combiners times the sum over the windows and the bins used of S s^2 sum(w^2)/(h^2 times the power of the pattern in the bin).", "quantifier": "every plant in which no inverter's name is part of another's, every permutation within inverters, any number of windows, patterns, velocities, segment lengths, limits, method, law of the noise, h in (0,1)", "why_tests_cant": "The input domain is infinite (all reals / all lengths); a unit test samples a handful of points.", "anchors": ["demos/field_demo_full_process.py", "src/solarspatialtools/field.py:compute_predicted_position", "src/solarspatialtools/signalproc.py:compute_delays_tf", "src/solarspatialtools/field.py:assign_positions"]}
{"id": "C243", "title": "Delays of isolated pulses are exact, whatever the window", "statement": "In exact arithmetic: when two sensors see the same one-sample pulses, the second m samples later and each pulse with any positive gain, and no segment sees two pulses, compute_delays_tf returns exactly m time steps ('multi' and 'fit') although the window weighs the pulse and its echo differently, provided that some segment sees a pulse in both records, 2|m| is below the segment length and the coherence limit is below (sum w w')^2 / (sum w^2 sum w'^2) of the weighted heights; this value is also the mean coherence reported. With the default Hamming window, half overlap and coherence limit 0.6 it is enough that every pulse has a half segment of its own, that the half segments of two pulses do not touch, and that the delay is at most an eighth of a segment.", "quantifier": "every train of pulses, heights, gains, shift, record length, number of averages, sampling rate, frequency limit; every window and overlap in the general form", "why_tests_cant": "The input domain is infinite (all reals / all lengths); a unit test samples a handful of points.", "anchors": ["src/solarspatialtools/signalproc.py:compute_delays_tf", "src/solarspatialtools/signalproc.py:averaged_tf", "src/solarspatialtools/signalproc.py:tf_delay"]}
{"id": "C244", "title": "Cloud motion from isolated pulses is exact with backend 'tf'", "statement": "In exact arithmetic: a mean-free train of one-sample pulses carried by a constant wind over the sites: with backend 'tf', its default Hamming window, half overlap, coherence limit 0.6 and frequency limit 0.02, compute_cmv with method 'gagne' returns exactly the speed and direction of the wind, if every pulse stays in a half segment of its own at all sites, no site sees it more than an eighth of a segment after another, the records are bright enough and two independent pairs with nonzero lags belong to the reference; so does method 'jamaly', flagging the result GOOD, if these two pairs are also within the velocity limits.", "quantifier": "every train of pulses, sample rate, record length, layout, wind, reference, options", "why_tests_cant": "The input domain is infinite (all reals / all lengths); a unit test samples a handful of points.", "anchors": ["src/solarspatialtools/cmv.py:compute_cmv", "src/solarspatialtools/cmv.py:_gagne_cmv_method", "src/solarspatialtools/signalproc.py:compute_delays_tf"]}
{"id": "C245", "title": "Predicted positions and the reassignment procedure on isolated pulses", "statement": "In exact arithmetic: when the data sets of a plant record isolated pulses that pass the true places of the sensors with known velocities, each sensor with a gain of its own, compute_predicted_position with the default window and coherence limit returns exactly the true place of the reference (NaN if its place in the table is displaced perpendicularly to one of the motions, or not at all, or no sensor is selected), as long as the sensors used are where the table says; and the complete procedure (downselect 'all') finds every mix-up within inverters in which each misplaced combiner is displaced along both motions of a kept pair of windows.", "quantifier": "every plant, permutation within inverters, gains, pulses, number of windows, velocities, averages, frequency limit", "why_tests_cant": "The input domain is infinite (all reals / all lengths); a unit test samples a handful of points.", "anchors": ["src/solarspatialtools/field.py:compute_predicted_position", "src/solarspatialtools/field.py:compute_delays", "src/solarspatialtools/field.py:assign_positions", "src/solarspatialtools/signalproc.py:compute_delays_tf"]}
{"id": "C246", "title": "A filter acts as convolution with its impulse response", "statement": "In exact arithmetic: whatever the filter (also one that is not conjugate symmetric), apply_filter(x, F) is the circular convolution of x with the result of apply_filter for a unit impulse of the same length; two filters can be applied in either order with the same result.", "quantifier": "every series, sampling interval and pair of filters for which the calls succeed", "why_tests_cant": "The input domain is infinite (all reals / all lengths); a unit test samples a handful of points.", "anchors": ["src/solarspatialtools/signalproc.py:apply_filter", "src/solarspatialtools/signalproc.py:interp_tf"]}
{"id": "C247", "title": "Filters in series multiply", "statement": "In exact arithmetic: apply_filter(apply_filter(x, A), B) is apply_filter(x, A*B) for filters given at frequencies that include those of the data's transform. Violated: for an even number of samples only the real part of the value at half the sampling rate is effective, so that the Marcos filter applied twice to an alternating series is never the filter with its square. Proved for filters with conjugate values at opposite frequencies and a real value at half the sampling rate (any for odd lengths).", "quantifier": "every series, sampling interval, frequency vector and pair of filters; violation for every plant area", "why_tests_cant": "The input domain is infinite (all reals / all lengths); a unit test samples a handful of points.", "anchors": ["src/solarspatialtools/signalproc.py:apply_filter", "src/solarspatialtools/signalproc.py:get_marcosfilter"]}
{"id": "C248", "title": "averaged_tf measures the filter that was applied", "statement": "In exact arithmetic: averaged_tf from x to apply_filter(x, F) (one block, rectangular window, no detrending) is NaN exactly at the frequencies where x has no power; elsewhere below half the sampling rate it is (F(f) + conj F(-f))/2, which is F(f) for a filter of a real system, at half the sampling rate it is the real part of F, and the coherence is 1 where F does not vanish.", "quantifier": "every series, sampling interval and filter for which the call succeeds", "why_tests_cant": "The input domain is infinite (all reals / all lengths); a unit test samples a handful of points.", "anchors": ["src/solarspatialtools/signalproc.py:apply_filter", "src/solarspatialtools/signalproc.py:averaged_tf"]}
{"id": "C249", "title": "A measured transfer function can be used as a filter", "statement": "In exact arithmetic: apply_filter(x, averaged_tf(x, y)) reproduces y (one block, rectangular window, no detrending, x with power at every frequency). Violated: the transfer function has no negative frequencies, so the call raises ValueError for every pair of records. Proved: continued to negative frequencies with the conjugate values it gives exactly y, for even and odd lengths.", "quantifier": "every pair of records of the same length, sampling interval", "why_tests_cant": "The input domain is infinite (all reals / all lengths); a unit test samples a handful of points.", "anchors": ["src/solarspatialtools/signalproc.py:apply_filter", "src/solarspatialtools/signalproc.py:averaged_tf"]}
{"id": "C250", "title": "Metres per degree of the flat-earth coordinates", "statement": "In exact arithmetic: lla2flat with method 'matlab' takes a degree of latitude as 110574 to 111694 m in every place and a degree of longitude as 111319 to 111694 m times the cosine of the reference latitude; the north distance between two sites depends on the choice of the reference point by at most 1.02 percent.", "quantifier": "every point, reference points", "why_tests_cant": "The input domain is infinite (all reals / all lengths); a unit test samples a handful of points.", "anchors": ["src/solarspatialtools/spatial.py:lla2flat"]}
{"id": "C251", "title": "Between samples the phase of a transfer function runs the shorter way round", "statement": "In exact arithmetic: interp_tf between two neighbouring samples a, b with nonzero values: the phase goes linearly from that of a to that of b through the angle arg(b/a) in (-pi, pi), and the magnitude linearly, unless b/a is negative; also across many turns of the phase before.", "quantifier": "every transfer function with distinct frequencies, new frequencies for which the call succeeds", "why_tests_cant": "The input domain is infinite (all reals / all lengths); a unit test samples a handful of points.", "anchors": ["src/solarspatialtools/signalproc.py:interp_tf"]}
{"id": "C252", "title": "Delay filters on a coarse frequency grid", "statement": "In exact arithmetic: a filter g exp(-2 pi i f tau) given at frequencies less than 1/(2 |tau|) apart is interpolated by interp_tf to exactly the same delay at every frequency between, and apply_filter shifts a series circularly by m samples if tau is m time steps, whether or not the frequencies are those of the data. On a grid of spacing D a longer delay acts as the delay nearest to zero that differs from it by a multiple of 1/D.", "quantifier": "every delay, gain, frequency grid, series", "why_tests_cant": "The input domain is infinite (all reals / all lengths); a unit test samples a handful of points.", "anchors": ["src/solarspatialtools/signalproc.py:interp_tf", "src/solarspatialtools/signalproc.py:apply_filter", "src/solarspatialtools/signalproc.py:apply_delay"]}
{"id": "C253", "title": "Resampling a filter does not change its effect", "statement": "In exact arithmetic: if a filter is interpolated with interp_tf to other frequencies that include those of the data's transform, apply_filter with the interpolated filter returns the same series as with the original one.", "quantifier": "every series, filter, frequency vector for which the calls succeed", "why_tests_cant": "The input domain is infinite (all reals / all lengths); a unit test samples a handful of points.", "anchors": ["src/solarspatialtools/signalproc.py:interp_tf", "src/solarspatialtools/signalproc.py:apply_filter"]}
{"id": "C254", "title": "Transfer functions, coherence and power spectra of the same records fit together", "statement": "In exact arithmetic: for the same records and options, at every frequency: averaged_tf is NaN exactly where averaged_psd of the input is 0, and the coherence is NaN exactly where one of the two power spectra is 0; the output power predicted by the transfer function, |tf|^2 psd(x), is coh times psd(y), hence never more than psd(y); and the transfer functions of the two directions multiply to the coherence, tf(x,y) tf(y,x) = coh.", "quantifier": "every pair of records of equal length, number of averages, overlap, window, detrending, frequency", "why_tests_cant": "The input domain is infinite (all reals / all lengths); a unit test samples a handful of points.", "anchors": ["src/solarspatialtools/signalproc.py:averaged_tf", "src/solarspatialtools/signalproc.py:averaged_psd"]}
{"id": "C255", "title": "Gains, offsets and drifts in spectra", "statement": "In exact arithmetic: multiplying a column by g multiplies its averaged_psd by g^2; multiplying the input by g and the output by h (both not 0) multiplies averaged_tf by h/g and leaves the coherence as it is; adding a constant (detrend 'constant' or 'linear') or a straight line over the whole record (detrend 'linear') changes nothing.", "quantifier": "every frame, gains, offsets, drifts, number of averages, overlap, window, scaling", "why_tests_cant": "The input domain is infinite (all reals / all lengths); a unit test samples a handful of points.", "anchors": ["src/solarspatialtools/signalproc.py:averaged_psd", "src/solarspatialtools/signalproc.py:averaged_tf"]}
{"id": "C256", "title": "Transfer-function delays are insensitive to gains and offsets of the sensors", "statement": "In exact arithmetic: as for compute_delays (C41), the delays of compute_delays_tf do not change when the records are multiplied by positive gains or offsets are added to them. (Violated for offsets: averaged_tf is called with detrend=None. A pulse that arrives one sample later has the delay 1; with an offset of -1 on the second record it is -3.5, and with the means of both records removed it is 0. Gains are without effect on delays, masks and mean coherences, and with the rectangular window so are offsets on the delays as long as all values stay positive.)", "quantifier": "every pair of frames, gains, offsets, number of averages, overlap, limits, method", "why_tests_cant": "The input domain is infinite (all reals / all lengths); a unit test samples a handful of points.", "anchors": ["src/solarspatialtools/signalproc.py:compute_delays_tf", "src/solarspatialtools/signalproc.py:averaged_tf", "src/solarspatialtools/signalproc.py:tf_delay"]}
{"id": "C257", "title": "tf_delay measures what apply_delay applies", "statement": "In exact arithmetic: tf_delay of apply_delay(tf, tau) is tf_delay(tf) + tau with the same mask, for each of the methods 'multi', 'fit' and 'diff' and any transfer function, not only a pure delay. The phase must be unambiguous where it is used: no value is 0, from one bin to the next neither the phase step nor the phase step less 2 pi df tau reaches half a turn, and at the first bin (frequency 0, or else by the same condition) the phase stays within half a turn; some usable bin has a frequency other than 0 ('diff': neighbouring frequencies differ).", "quantifier": "every transfer function, coherence, limits, delay for which the phase is unambiguous", "why_tests_cant": "The input domain is infinite (all reals / all lengths); a unit test samples a handful of points.", "anchors": ["src/solarspatialtools/signalproc.py:tf_delay", "src/solarspatialtools/signalproc.py:apply_delay"]}
{"id": "C258", "title": "Rounding in the error metrics", "statement": "With every operation rounded with relative error at most u < 1 (u = 2^-53 for float64, no underflow or overflow) and sums taken in any order, mae, mse and rmse are NaN exactly when they are in exact arithmetic, and otherwise between (1-u)^k and (1-u)^-k times the exact value, with k = n+1, n+3 and n+4 for n rows; their relative error is at most 2(n+4)u as long as this is at most 1. mbe differs from the exact value by at most ((1+u)^(n+1) - 1) mae.", "quantifier": "every pair of arrays or Series with NaN, rounding, order of summation", "why_tests_cant": "All series and all orders in which numpy may add.", "anchors": ["src/solarspatialtools/stats.py:mae", "src/solarspatialtools/stats.py:mse", "src/solarspatialtools/stats.py:rmse", "src/solarspatialtools/stats.py:mbe"]}
{"id": "C259", "title": "Rounding in ramp and path-length metrics", "statement": "With every operation rounded with relative error at most u < 1 and sums taken in any order, darr (pct=False, without resampling) of n samples is between (1-u)^(n+1) and (1-u)^-(n+1) times its exact value, and a finite variability_index (without resampling) of n samples of GHI and m of clear sky between (1-u)^(n+m+14) and (1-u)^-(n+m+14) times its exact value: close samples lead to no loss of accuracy.", "quantifier": "every series with NaN, tau, time stamps, norm, rounding, order of summation", "why_tests_cant": "All series and all orders in which numpy may add.", "anchors": ["src/solarspatialtools/stats.py:darr", "src/solarspatialtools/stats.py:variability_index"]}
{"id": "C260", "title": "Rounding in plane vectors", "statement": "With every operation rounded with relative error at most u < 1: magnitude is between (1-u)^3 and (1-u)^-3 times the exact length, the distance of a point from a reference (compute_vectors, magnitude) between (1-u)^5 and (1-u)^-5 times the exact one however close the points are; unit of a vector other than 0 is in the same quadrant with a length between (1-u)^4 and (1-u)^-4; dot differs from the exact value by at most ((1+u)^2 - 1) times the sum of the absolute products, project_vectors by at most (1-u)^-6 - 1 times the length of the vector, and each coordinate of rotate_vector, with cosine and sine known to within e, by at most (((1+u)^2 - 1)(1+e) + e) times the sum of the absolute coordinates.", "quantifier": "every vector, direction, angle, rounding", "why_tests_cant": "The input domain is infinite (all reals / all lengths); a unit test samples a handful of points.", "anchors": ["src/solarspatialtools/spatial.py:magnitude", "src/solarspatialtools/spatial.py:compute_vectors", "src/solarspatialtools/spatial.py:unit", "src/solarspatialtools/spatial.py:dot", "src/solarspatialtools/spatial.py:project_vectors", "src/solarspatialtools/spatial.py:rotate_vector"]}
{"id": "C261", "title": "Small changes of a series change the variability score little", "statement": "In exact arithmetic: if two complete series of equal length differ by at most e in every sample, their variability scores (without resampling) differ by at most 2e. (Violated: ties share an average rank. A steady ramp of n steps v has the score v(n-1)/(2n), and arbitrarily small changes of the samples give at least twice as much. Proved: the score of the changed series is at most twice the score plus 2e, and at most the score plus 2e if no two ramps of the series have the same magnitude.)", "quantifier": "every pair of complete series, tau", "why_tests_cant": "The input domain is infinite (all reals / all lengths); a unit test samples a handful of points.", "anchors": ["src/solarspatialtools/stats.py:variability_score"]}
{"id": "C262", "title": "Rounding in compute_intersection", "statement": "With every operation rounded with relative error at most u < 1: let C be the exact intersection of the lines through the tips of two vectors A, B other than 0 at right angles to them, and s at most the sine of the angle between A and B. With e = (1-u)^-4 - 1 < s, each coordinate of compute_intersection is finite and differs from that of C by at most (1+u) 3e/(s-e) + u times the length of C: the accuracy depends on the angle between the vectors, not on their lengths.", "quantifier": "every pair of vectors, rounding", "why_tests_cant": "The input domain is infinite (all reals / all lengths); a unit test samples a handful of points.", "anchors": ["src/solarspatialtools/spatial.py:compute_intersection"]}
{"id": "C263", "title": "The zone of a longitude with rounding", "statement": "With float64 arithmetic latlon2utm without zone uses the zone whose 6-degree band contains the longitude (C01). (Violated next to a border: at -2^-60 degrees, which is a float64, the zone is 31, not 30. Proved for any rounding with relative error at most u that keeps the order and leaves whole numbers as they are: the zone is never too small and at most one too large, and the latter only within 360((1+u)^3 - 1) + 6u degrees west of a border, 1.3e-13 degrees for float64.)", "quantifier": "every longitude from -180 to below 180, latitude, rounding, projection", "why_tests_cant": "The input domain is infinite (all reals / all lengths); a unit test samples a handful of points.", "anchors": ["src/solarspatialtools/spatial.py:_calc_zone", "src/solarspatialtools/spatial.py:latlon2utm"]}
{"id": "C264", "title": "The cell of a position with rounding", "statement": "With float64 arithmetic get_positional_ts reads the cell that contains the position. (Violated at the border of cells: at a cloud speed of 0.1 m/s a sensor at 0.3 m reads from row 2, not 3. Proved for any rounding with relative error at most u < 1 of the arguments and of the division: the cell is the right one if position/speed is not within (1-u)^-3 - 1 times itself of a whole number, in particular in the middle of cells, and otherwise at most one cell away in each direction.)", "quantifier": "every field, position, cloud speed, duration, rounding", "why_tests_cant": "The input domain is infinite (all reals / all lengths); a unit test samples a handful of points.", "anchors": ["src/solarspatialtools/synthirrad/cloudfield.py:get_positional_ts"]}
{"id": "C265", "title": "Longitudes that differ by a full turn are the same place", "statement": "In exact arithmetic: latlon2utm without zone gives the same result for lon and lon + 360. (Violated: every longitude from 180 on gets zone 60, so that with longitudes from 0 to 360 the whole western hemisphere is projected in zone 60 without an error, and longitudes below -180 get a number that is 0 or negative and no zone. Proved: with zone given, and for 174 to 180 degrees, a projection that knows full turns gives the same coordinates.)", "quantifier": "every longitude, latitude, projection", "why_tests_cant": "The input domain is infinite (all reals / all lengths); a unit test samples a handful of points.", "anchors": ["src/solarspatialtools/spatial.py:_calc_zone", "src/solarspatialtools/spatial.py:latlon2utm"]}
{"id": "C266", "title": "Assignment with rounding", "statement": "With every operation rounded with relative error at most u < 1 and an assignment solver that is optimal for the rounded matrix, assign_positions (predictions without NaN) returns a bijection of the labels with a total distance of at most (1-u)^-10 times the least possible one, sorted by its first element, and the table remapped with it; predictions that are exactly the original positions of the true places are recovered (C20), and so is a true assignment that is better than every other one by more than that factor.", "quantifier": "every plan, predictions, rounding", "why_tests_cant": "The input domain is infinite (all reals / all lengths); a unit test samples a handful of points.", "anchors": ["src/solarspatialtools/field.py:assign_positions"]}
{"id": "C267", "title": "Predicted position with rounding", "statement": "With every operation rounded with relative error at most u < 1, delays of straight fronts through the true position p (NaN rows skipped) and two directions that are not parallel, compute_predicted_position returns finite coordinates whose distance from those of p is bounded by the errors of the delays and of the angle functions and by u, for any selection of sites. With float64, up to 1000 selected sites within 1 km of the reference, delays in which the front moves at most 1 km, cosine and sine good to 2^-50, directions at least 30 degrees apart and coordinates up to 10^7: if every delay is right up to the time in which the front moves by T, and p is farther than T + 1e-9 from the reference in both directions, the error is at most 5 T + 1e-8 in each coordinate.", "quantifier": "every selection of sites, positions, velocities, delays, rounding, order of summation", "why_tests_cant": "The input domain is infinite (all reals / all lengths); a unit test samples a handful of points.", "anchors": ["src/solarspatialtools/field.py:compute_predicted_position", "src/solarspatialtools/spatial.py:compute_intersection", "src/solarspatialtools/spatial.py:project_vectors"]}
{"id": "C268", "title": "Delays from the cross-correlation with rounding", "statement": "With every operation rounded with relative error at most u < 1, sums in any order and correlations accurate to eta times the sizes of the records (root of the sum of squares), compute_delays (mode 'loop') finds a lag whose exact correlation (without means for 'coeff') falls short of the largest by at most 2((1+eta)(1+u)^(2n+2) - 1) times the sizes of the two records of n samples, and returns minus that lag in units of time, or 0 where the peak is below 1e-10. Direct sums have eta = (1+u)^n - 1. With float64, scaling 'coeff', direct sums and up to a million samples the delay is exactly minus the lag of the largest correlation if that exceeds every other one by 2e-9 times the sizes of the records, and is at least 1e-8 times them.", "quantifier": "every pair of records, sampling period, correlation routine, rounding, order of summation", "why_tests_cant": "All series and all orders in which numpy may add.", "anchors": ["src/solarspatialtools/signalproc.py:compute_delays"]}
{"id": "C269", "title": "Local coordinates with rounding", "statement": "With float64 arithmetic and sine and cosine good to 1e-15, lla2flat (method 'matlab') of places with latitudes from -90 to 90 and longitudes from -180 to 180 differs from its value in exact arithmetic by at most 4e-8 m + 1e-9 m for each degree of difference in longitude (east) and 2e-8 m + 1e-9 m for each degree of difference in latitude (north): nearby places lose no accuracy beyond that of their degrees. The reference itself is exactly (0, 0) with any rounding.", "quantifier": "every place, reference, rounding, angle functions", "why_tests_cant": "The input domain is infinite (all reals / all lengths); a unit test samples a handful of points.", "anchors": ["src/solarspatialtools/spatial.py:lla2flat"]}
{"id": "C270", "title": "Segments of averaged spectra with rounding", "statement": "With float64 arithmetic averaged_psd and averaged_tf use segments of L = n // navgs samples that overlap by the whole part of L times overlap. (Violated: with L = 90 and overlap 0.7 they overlap by 62 samples, not 63, and the spectrum is another one. Proved for any rounding with relative error at most u < 1: the segments are the right ones if L times overlap is not within (1-u)^-2 - 1 times itself of a whole number, the overlap is at most one sample off otherwise, and half overlap, the default, is exact for records of less than 2^51 samples.)", "quantifier": "every frame, overlap, navgs, window, rounding", "why_tests_cant": "The input domain is infinite (all reals / all lengths); a unit test samples a handful of points.", "anchors": ["src/solarspatialtools/signalproc.py:averaged_psd", "src/solarspatialtools/signalproc.py:averaged_tf"]}
{"id": "C271", "title": "Plant profiles with rounding", "statement": "With float64 arithmetic every site in the range of get_1d_plant (square, dx = 1, width None) marks exactly one sample (C48). (Violated: a site at 0.5000000000000001 marks no sample, one at -0.49999999999999994 two. Proved for any rounding with relative error at most u < 1, any width w and sites: with e = 3u(|c| + w/2) for a site at c, samples within w/2 - e of a site are 1, samples farther than w/2 + e from all sites 0, and the profile is that of exact arithmetic if no end of a site is within e of a whole number.)", "quantifier": "every list of sites, reference, width, range, rounding", "why_tests_cant": "The input domain is infinite (all reals / all lengths); a unit test samples a handful of points.", "anchors": ["src/solarspatialtools/signalproc.py:get_1d_plant"]}
{"id": "C272", "title": "Polar coordinates with rounding", "statement": "With float64 arithmetic and arctan2, cosine and sine good to 1e-15, each coordinate of pol2rect(rect2pol(x, y)) differs from x, y by at most 3e-15 times the length of (x, y); for every radius and an angle known to within e <= 1e-4, those of pol2rect are right to within (2e-15 + 1.001 e) times the radius.", "quantifier": "every vector, radius, angle, rounding, angle functions", "why_tests_cant": "The input domain is infinite (all reals / all lengths); a unit test samples a handful of points.", "anchors": ["src/solarspatialtools/spatial.py:rect2pol", "src/solarspatialtools/spatial.py:pol2rect"]}
{"id": "C273", "title": "Variability score with rounding", "statement": "With float64 arithmetic variability_score (without moving average and percentage) differs from its value in exact arithmetic by rounding only. (Violated: the decimals 0.1, 0.2, 0.3 give 0.05 instead of 0.025, for rounding makes equal ramps different. Proved for any rounding with relative error u <= 1/8, samples up to M in size that are themselves rounded, and any gaps: the score with rounding is NaN only if the exact one is, at most 2 times the exact one + 16uM, the exact one at most 2 times the rounded one + 26uM; if the magnitudes of all ramps are farther than 10uM from each other, they differ by at most 16uM.)", "quantifier": "every series, gaps, tau, rounding", "why_tests_cant": "The input domain is infinite (all reals / all lengths); a unit test samples a handful of points.", "anchors": ["src/solarspatialtools/stats.py:variability_score"]}
{"id": "C274", "title": "Space-time distances with rounding", "statement": "With float64 arithmetic the matrix of spacetime_distances is exactly symmetric, its diagonal exactly zero and no entry negative, whatever the rounding, as long as it treats both signs alike, and whatever sine and cosine return. With sine and cosine good to 1e-15 each entry is right to within 1e-14 times (R + L), where R is the largest coordinate in size and L the longest way the clouds travel from the first time to any other.", "quantifier": "every layout, times, speed, direction, rounding, angle functions", "why_tests_cant": "The input domain is infinite (all reals / all lengths); a unit test samples a handful of points.", "anchors": ["src/solarspatialtools/spatial.py:spacetime_distances"]}
{"id": "C275", "title": "Clear-sky index with rounding", "statement": "With rounding of relative error at most u < 1 every value of clearsky_index is within u times itself of the exact one, lies between 0 and the maximum exactly (2 for frames) and is NaN exactly if the irradiance or its clear-sky value is. With float64 the index is exactly 1 where the irradiance is that of the clear sky, and more irradiance under the same clear sky never gives a smaller index.", "quantifier": "every frame, series, gap, maximum, rounding", "why_tests_cant": "The input domain is infinite (all reals / all lengths); a unit test samples a handful of points.", "anchors": ["src/solarspatialtools/irradiance.py:clearsky_index"]}
{"id": "C276", "title": "Variability in percent with rounding", "statement": "With rounding of relative error at most u < 1 darr with pct (no moving average), which scales the n samples before it takes differences, is within ((1-u)^-(n+2) - 1) n M / 5 of its value in exact arithmetic for samples up to M in size; variability_score with pct is one tenth of the score without to within a relative error of (1-u)^-2 - 1, NaN exactly if that is.", "quantifier": "every series, gap, tau, rounding, order of summation", "why_tests_cant": "The input domain is infinite (all reals / all lengths); a unit test samples a handful of points.", "anchors": ["src/solarspatialtools/stats.py:darr", "src/solarspatialtools/stats.py:variability_score"]}
{"id": "C277", "title": "Local coordinates from UTM with rounding", "statement": "With rounding of relative error at most u < 1 latlon2lcs gives the origin the coordinates (0, 0) exactly, whatever the projection. If the projection is good to e metres at the place and the origin, each local coordinate x is right to within 2e + u(|x| + 2e): the size of the UTM coordinates does not matter. For a place in the zone and hemisphere of the origin lcs2latlon of its local coordinates is the inverse projection of a point at most 4uM (4.5e-9 m for float64) from its own projection, where M is the largest of the UTM coordinates in size and u <= 1/2.", "quantifier": "every place, origin, projection, rounding", "why_tests_cant": "The input domain is infinite (all reals / all lengths); a unit test samples a handful of points.", "anchors": ["src/solarspatialtools/spatial.py:latlon2lcs", "src/solarspatialtools/spatial.py:lcs2latlon"]}
{"id": "C278", "title": "Applying a delay with rounding", "statement": "With float64 arithmetic and sine and cosine good to 1e-15, apply_delay leaves the size of every value of the transfer function as it is to within 6e-15 of itself, however long the delay; each value is right to within 6e-15 + 3.2e-15 times the number of periods it is delayed by (frequency times delay), relative to its size.", "quantifier": "every transfer function, delay, rounding, angle functions", "why_tests_cant": "The input domain is infinite (all reals / all lengths); a unit test samples a handful of points.", "anchors": ["src/solarspatialtools/signalproc.py:apply_delay"]}
{"id": "C279", "title": "Marcos filter with rounding", "statement": "With float64 arithmetic and the result stored as complex64, the real and the imaginary part of get_marcosfilter are each right to within 6e-8 of themselves for a plant of positive area and frequencies from 0 on. The gain at frequency 0 is exactly 1 and the value at -f is exactly the conjugate of that at f, so that filtered series stay real.", "quantifier": "every area, list of frequencies, rounding", "why_tests_cant": "The input domain is infinite (all reals / all lengths); a unit test samples a handful of points.", "anchors": ["src/solarspatialtools/signalproc.py:get_marcosfilter"]}
{"id": "C280", "title": "Cloud motion vector with rounding", "statement": "With float64 arithmetic and arctan2 good to 1e-15 the speed of compute_cmv with method 'gagne' is the inverse of the length of the fitted slowness to within 2e-15 of itself, and the unit vector of the direction is that of the slowness to within 5e-15 in each component. With either method making the speed positive and reducing the angle keeps the velocity to within 2e-15 + 2e-16 |theta| in each component of the unit vector, the speed is not negative and the direction lies from 0 to 2*np.pi, both included: with IEEE rounding every angle below 0 by less than 2^-51 is returned as exactly 2*np.pi, so that a test theta < 2*np.pi fails for it.", "quantifier": "every slowness, speed, angle, rounding, arctan2", "why_tests_cant": "The input domain is infinite (all reals / all lengths); a unit test samples a handful of points.", "anchors": ["src/solarspatialtools/cmv.py:compute_cmv"]}
{"id": "C281", "title": "Correlation coefficient with rounding", "statement": "With float64 arithmetic peak_corr of compute_delays with scaling 'coeff' is the largest correlation coefficient over all lags, to within 3e-6, and at most 1 + 1e-6 in size, for records of up to 100000 samples; for a sensor that does not vary it is NaN as in exact arithmetic.", "quantifier": "every pair of records, rounding, order of summation", "why_tests_cant": "The input domain is infinite (all reals / all lengths); a unit test samples a handful of points.", "anchors": ["src/solarspatialtools/signalproc.py:compute_delays"]}
{"id": "C282", "title": "Quality control of pairs with rounding", "statement": "With float64 arithmetic a pair with a sensor that does not vary is never flagged GOOD by compute_cmv, for every value up to 1e6 in size and up to 100000 samples, although its correlation may come out infinite. For records between 0 and 10 (clear-sky index) the flag of a pair is that of exact arithmetic, unless the standard deviation or variation ratio is within 1e-8, the correlation ratio within 1e-15 (1 + |mean/peak|) or the speed within a relative 1e-15 of its limit.", "quantifier": "every pair of records, distance, delay, correlation, option, rounding", "why_tests_cant": "The input domain is infinite (all reals / all lengths); a unit test samples a handful of points.", "anchors": ["src/solarspatialtools/cmv.py:_pairwise_qc", "src/solarspatialtools/cmv.py:compute_cmv"]}
{"id": "C283", "title": "Quantile summary with rounding", "statement": "With float64 arithmetic every value of calc_quantile still lies exactly between the smallest and largest windowed value at that time of day, equals the common value if they are all equal, and is exactly the minimum for level 0 and the maximum for level 1; NaN occurs only for missing data. It differs from the quantile of exact arithmetic by at most 2^-53 (M + 5 k R) for k values of size at most M and range at most R.", "quantifier": "every series, window length, level in [0,1], rounding", "why_tests_cant": "The input domain is infinite (all reals / all lengths); a unit test samples a handful of points.", "anchors": ["src/solarspatialtools/stats.py:calc_quantile"]}
{"id": "C284", "title": "Weights of the wavelet modes with rounding", "statement": "With float64 arithmetic the weights of get_timeseries_stats (mean square of each wavelet mode over their sum) are NaN exactly where those of exact arithmetic are; otherwise all are at least 0, each is within 2N + k + 2 roundings of the exact weight for k modes of up to N samples, and so is their sum of 1.", "quantifier": "every set of modes, every NaN pattern, rounding, order of summation", "why_tests_cant": "The input domain is infinite (all reals / all lengths); a unit test samples a handful of points.", "anchors": ["src/solarspatialtools/synthirrad/cloudfield.py:_calc_wavelet_weights"]}
{"id": "C285", "title": "Statistics of a clear-sky index series with rounding", "statement": "With float64 arithmetic the statistics of get_timeseries_stats keep their order: the first percentile lies between two values of the series and within 2^-53 * 6n times the maximum of the exact one, mean and first percentile are at most the maximum, the maximum is a value of the series; the clear fraction lies in [0, 1], is 0 exactly if no sample is above the threshold and 1 exactly if all are. (Violated: the mean of three samples of 0.1 exceeds their maximum.)", "quantifier": "every series of up to 2^53 samples with any NaN, every threshold, rounding, order of summation", "why_tests_cant": "The input domain is infinite (all reals / all lengths); a unit test samples a handful of points.", "anchors": ["src/solarspatialtools/synthirrad/cloudfield.py:get_timeseries_stats"]}
{"id": "C286", "title": "Clear mask with rounding", "statement": "With float64 arithmetic the clear mask of a cloud field of distinct values with at least 4001 requested clear cells is always accepted (no AssertionError), and the number of clear cells is within 3 of the requested one. In every accepted mask each clear cell is lower than every cloudy one, and the clear fraction is within 1.1e-8 plus 0.101 % of itself of the requested one.", "quantifier": "every field of up to 2^53 cells, every clear fraction, rounding", "why_tests_cant": "The input domain is infinite (all reals / all lengths); a unit test samples a handful of points.", "anchors": ["src/solarspatialtools/synthirrad/cloudfield.py:_calc_clear_mask"]}
{"id": "C287", "title": "Original scaling of a cloud field with rounding", "statement": "With float64 arithmetic the original scaling of a positive cloud field with a cloudy cell gives no error and keeps the ranges exactly: clear cells are exactly 1; the edge values are all NaN or all lie in [1, ktmax], with exactly ktmax where the field is lowest and exactly 1 where it is highest; the values of cloudy cells are all NaN or all at least 0; and where the field is higher the result is not higher.", "quantifier": "every positive field of up to 2^53 cells with a cloudy cell, all masks, every target mean, ktmax for which ktmax and ktmax - 1 are floats, rounding, order of summation", "why_tests_cant": "The input domain is infinite (all reals / all lengths); a unit test samples a handful of points.", "anchors": ["src/solarspatialtools/synthirrad/cloudfield.py:_scale_field_lave"]}
{"id": "C288", "title": "Alternate scaling of a cloud field with rounding", "statement": "With float64 arithmetic the alternate scaling of a cloud field (default options) whose two quantiles lo < hi differ gives no error; clear cells are exactly 1, edge values at least 1 and cloudy values at least kt1pct, for every field value; a cell at lo has exactly these values. For field values between lo and hi edge values are at most ktmax, reached exactly at hi, and cloudy values are at most 1 (with the warning) or 1 + kt1pct (without), up to three roundings.", "quantifier": "every field, all masks, every target mean, kt1pct in [0, 1], ktmax for which ktmax and ktmax - 1 are floats, rounding, order of summation", "why_tests_cant": "The input domain is infinite (all reals / all lengths); a unit test samples a handful of points.", "anchors": ["src/solarspatialtools/synthirrad/cloudfield.py:_scale_field_basic"]}
{"id": "C289", "title": "Stacked random fields with rounding", "statement": "With float64 arithmetic a stacked random field of layers and weights of at least 0 is at least 0 everywhere and within one rounding more than there are scales of the weighted sum. With normalize=True the assertions of _stack_random_field never fail unless all cells are equal: the lowest cells become exactly 0, the highest exactly 1, all others lie between, and the order of the cells is kept; a constant field always fails with AssertionError.", "quantifier": "every set of layers and weights, every size, rounding", "why_tests_cant": "The input domain is infinite (all reals / all lengths); a unit test samples a handful of points.", "anchors": ["src/solarspatialtools/synthirrad/cloudfield.py:_stack_random_field"]}
{"id": "C290", "title": "Broadened cloud edges with rounding", "statement": "With float64 arithmetic the broadened edge mask of _find_edges (default threshold, filter size 2 to 300, up to a million cells in each direction) is the one of exact arithmetic: setting filtered values below 1e-5 to zero removes all that the running sums of the filter leave behind by rounding and nothing else, so exactly the cells whose window holds an edge cell are marked.", "quantifier": "every mask up to 10^6 x 10^6, filter sizes 2 to 300, rounding, order of summation", "why_tests_cant": "The input domain is infinite (all reals / all lengths); a unit test samples a handful of points.", "anchors": ["src/solarspatialtools/synthirrad/cloudfield.py:_find_edges"]}
{"id": "C291", "title": "The generator of cloud fields with rounding", "statement": "With float64 arithmetic cloudfield_timeseries with the original scaling raises no error for stacked fields of floats (the first positive, the second of distinct values) with at least 4001 cells requested clear and 4 cloudy: the number of clear cells is within 3 of the requested one, they are where the second field is lowest and exactly 1; other cells at edges of the clear region are NaN or lie in [1, ktmax]; all remaining cells are NaN or at least 0. With the basic scaling, if the mask is accepted and the two quantiles differ, clear cells are exactly 1, cells whose smoothing window (2 to 300) holds an edge are at least 1, all others at least kt1pct, and no cell is NaN.", "quantifier": "all interpolated random layers, weights, clear fractions, target means, kt1pct up to 1, ktmax of at least 1 for which ktmax and ktmax - 1 are floats, rounding, order of summation", "why_tests_cant": "The input domain is infinite (all reals / all lengths); a unit test samples a handful of points.", "anchors": ["src/solarspatialtools/synthirrad/cloudfield.py:cloudfield_timeseries"]}
